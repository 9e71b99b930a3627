{"id": "C01", "title": "run_inference follows the synchronous FCM recurrence", "statement": "With the iterative engine (debug=True), after run_inference() returns, each concept's recorded trajectory satisfies, at every step t, A_c(t+1) = f_c( sum of w*A_o(t) over the relations o->c whose origin is active, with 2*A_o-1 in place of A_o for PAPAGEORGIUS origins, plus the concept's own (rescaled) previous value when it uses memory ), every concept reading only step-t values; entry 0 is the initial activation.", "quantifier": "every map built through the API, every initial activation, every step of the run", "why_tests_cant": "The claim is about every topology, weight and step; a test fixes one map and compares a few final numbers.", "anchors": ["py_fcm/fcm.py:__iterative_inference", "py_fcm/fcm.py:run_inference", "py_fcm/utils/functions.py:Excitation.kosko", "py_fcm/utils/functions.py:Excitation.papageorgius"]}
{"id": "C02", "title": "run_inference always terminates within max_iter plus the extra steps", "statement": "The iterative engine performs at most (max_iter - 1) + (extra_steps - 1) steps (max_iter >= 1), hence every trajectory has at most max_iter + extra_steps - 1 entries; with stop_at_stabilize=False it performs exactly that many (when extra_steps >= 2 and no exception is raised).", "quantifier": "every map, max_iter, extra_steps, stability threshold and activation", "why_tests_cant": "Termination and an exact bound range over unboundedly many configurations, including maps that oscillate between stable and unstable.", "anchors": ["py_fcm/fcm.py:__iterative_inference", "py_fcm/fcm.py:__keep_execution", "py_fcm/fcm.py:is_stable"]}
{"id": "C03", "title": "run_inference stops only for a documented reason", "statement": "When the iterative engine stops, each of its last extra_steps - 1 steps was entered either with the iteration limit reached or (only if stop_at_stabilize) with every concept having moved by at most stability_diff in the preceding step.", "quantifier": "every map and configuration", "why_tests_cant": "Needs the whole history of the stop counter, which is reset whenever the map becomes unstable again.", "anchors": ["py_fcm/fcm.py:__iterative_inference", "py_fcm/fcm.py:__keep_execution", "py_fcm/fcm.py:is_stable"]}
{"id": "C04", "title": "run_inference is repeatable", "statement": "Calling run_inference() again without touching the map yields exactly the same trajectories and the same final values.", "quantifier": "every map (any arithmetic, including floating point) on which the first call returns normally", "why_tests_cant": "Depends on every piece of state the first run leaves behind being reset.", "anchors": ["py_fcm/fcm.py:run_inference", "py_fcm/fcm.py:reset_execution"]}
{"id": "C05", "title": "reset_execution and clear_execution restore the starting state", "statement": "After any run, reset_execution() gives every concept back the activation it had at the start of the run, and clear_execution() sets every concept to 0.0; neither changes concepts, properties, relations or map settings.", "quantifier": "every reachable map state and every concept", "why_tests_cant": "Frame condition over every state component after every history.", "anchors": ["py_fcm/fcm.py:reset_execution", "py_fcm/fcm.py:clear_execution"]}
{"id": "C06", "title": "Activation functions stay in their documented ranges", "statement": "saturation, sigmoid, relm (positive slope) and gceq/lceq/sigmoid_hip/fuzzy return values in [0,1], respectively [-1,1]; biestate returns 0 or 1 and threestate 0, 0.5 or 1.", "quantifier": "every real input and parameter value", "why_tests_cant": "The domain is the whole real line times the parameter space.", "anchors": ["py_fcm/utils/functions.py:saturation", "py_fcm/utils/functions.py:bistate", "py_fcm/utils/functions.py:threestate", "py_fcm/utils/functions.py:sigmoid", "py_fcm/utils/functions.py:sigmoid_hip", "py_fcm/utils/functions.py:relm", "py_fcm/utils/functions.py:greater_cond_equality", "py_fcm/utils/functions.py:lower_cond_equality", "py_fcm/utils/functions.py:fuzzy_set"]}
{"id": "C07", "title": "Inference never leaves [-1,1]", "statement": "If every initial activation lies in [-1,1] and run_inference() returns, every recorded value and every final value lies in [-1,1] (for fuzzy memberships in [0,1] and positive relm slopes).", "quantifier": "every map, weight, trajectory and decision function", "why_tests_cant": "Weights and topologies are unbounded; only induction over steps covers all trajectories.", "anchors": ["py_fcm/fcm.py:run_inference", "py_fcm/fcm.py:__iterative_inference", "py_fcm/utils/functions.py:Decision"]}
{"id": "C08", "title": "Decision functions compute last / mean / highest", "statement": "LAST returns a recorded value, MEAN the arithmetic mean of the entries up to the last valid position, EXITED the highest of the considered entries; the result always lies between the smallest and the largest recorded value.", "quantifier": "every non-empty trajectory and last position the run can produce", "why_tests_cant": "All lengths and positions, including the degenerate ones.", "anchors": ["py_fcm/utils/functions.py:Decision.last", "py_fcm/utils/functions.py:Decision.mean", "py_fcm/utils/functions.py:Decision.exited"]}
{"id": "C09", "title": "EXITED decision is available for every run", "statement": "run_inference() with decision_function='EXITED' completes on every map on which it completes with 'LAST'.", "quantifier": "every map, max_iter and extra_steps", "why_tests_cant": "The failing trajectory length (exactly extra_steps + 1) only occurs for particular maps.", "anchors": ["py_fcm/utils/functions.py:Decision.exited", "py_fcm/fcm.py:run_inference"]}
{"id": "C10", "title": "Inactive concepts do not influence their neighbours", "statement": "The trajectory of every other concept is independent of the weights of the relations leaving an inactive concept, in both engines.", "quantifier": "every map and every inactive concept", "why_tests_cant": "Non-interference quantifies over pairs of maps.", "anchors": ["py_fcm/fcm.py:__iterative_inference", "py_fcm/fcm.py:__vectorized_inference", "py_fcm/utils/functions.py:vectorized_run"]}
{"id": "C11", "title": "The vectorised engine computes the same trajectory as the iterative engine", "statement": "For the same map, step t of the trajectory recorded with debug=False equals step t recorded with debug=True, for every t both engines execute.", "quantifier": "every map, concept and step", "why_tests_cant": "Equivalence of two implementations over all inputs.", "anchors": ["py_fcm/fcm.py:__iterative_inference", "py_fcm/fcm.py:__vectorized_inference", "py_fcm/utils/functions.py:vectorized_run", "py_fcm/utils/functions.py:__exec_actv_function"]}
{"id": "C12", "title": "The vectorised engine stays inside its output buffer", "statement": "vectorized_run never writes outside its (concepts x max_iter) output matrix.", "quantifier": "every map, max_iter, threshold and extra_steps", "why_tests_cant": "numba does not check bounds, so no test sees the stray write; it needs a non-converging map.", "anchors": ["py_fcm/utils/functions.py:vectorized_run", "py_fcm/fcm.py:__vectorized_inference"]}
{"id": "C13", "title": "The vectorised engine reports the trajectory it computed", "statement": "The trajectory read back from the output matrix holds exactly the initial state and the executed steps for every concept.", "quantifier": "every map and run", "why_tests_cant": "The end of the data is detected through the in-band value 2.0 of the first concept.", "anchors": ["py_fcm/fcm.py:__vectorized_inference"]}
{"id": "C14", "title": "The vectorised engine never uses stale prepared data", "statement": "Whenever the prepared flag is set, the cached relation matrix, function ids, arguments, memory and saturation flags are what rebuilding them from the current concepts and relations would give.", "quantifier": "every history of API calls", "why_tests_cant": "Cache coherence over arbitrary operation sequences.", "anchors": ["py_fcm/fcm.py:__vectorized_inference", "py_fcm/fcm.py:add_concept", "py_fcm/fcm.py:add_relation", "py_fcm/fcm.py:set_concept_properties", "py_fcm/fcm.py:set_map_activation_function"]}
{"id": "C15", "title": "Inference does not depend on the order in which relations were added", "statement": "Two maps that differ only in the order of their add_relation calls produce the same trajectories and final values (in exact arithmetic).", "quantifier": "every map and every permutation of its relations", "why_tests_cant": "All permutations of lists of any length.", "anchors": ["py_fcm/fcm.py:add_relation", "py_fcm/fcm.py:__iterative_inference"]}
{"id": "C16", "title": "Outgoing relations agree with the exported relations", "statement": "get_concept_outgoing_relations(c) lists exactly the relations with origin c that to_json exports, in the same order.", "quantifier": "every history of API calls", "why_tests_cant": "Two redundant stores of the relations must agree after every history.", "anchors": ["py_fcm/fcm.py:add_relation", "py_fcm/fcm.py:get_concept_outgoing_relations", "py_fcm/fcm.py:to_json", "py_fcm/fcm.py:add_concept"]}
{"id": "C17", "title": "Relations only ever join existing concepts", "statement": "add_relation with an unknown origin or destiny changes nothing observable, and in every reachable map every exported relation has both ends among the concepts.", "quantifier": "every history of API calls", "why_tests_cant": "Invariant over all histories.", "anchors": ["py_fcm/fcm.py:add_relation", "py_fcm/fcm.py:clear_all"]}
{"id": "C18", "title": "A rejected add_concept leaves the map as it was", "statement": "If add_concept raises, the map's concepts, values and relations are unchanged and the map remains usable.", "quantifier": "every map and every rejected call", "why_tests_cant": "Exception safety at every raise point.", "anchors": ["py_fcm/fcm.py:add_concept"]}
{"id": "C19", "title": "set_concept_properties changes only what it is asked to", "statement": "set_concept_properties changes no other concept, no relation, no value and, of the named concept, only the properties passed; on an unknown concept it raises and changes nothing.", "quantifier": "every map, concept and argument combination", "why_tests_cant": "Frame condition over all argument combinations.", "anchors": ["py_fcm/fcm.py:set_concept_properties"]}
{"id": "C20", "title": "set_map_activation_function governs every concept without a custom function", "statement": "After set_map_activation_function(f), every concept without a custom function - existing or added later - is evaluated with f, and concepts with a custom function keep theirs.", "quantifier": "every history of API calls", "why_tests_cant": "Involves concepts added later, i.e. all continuations of a history.", "anchors": ["py_fcm/fcm.py:set_map_activation_function", "py_fcm/fcm.py:add_concept", "py_fcm/fcm.py:set_default_concept_properties"]}
{"id": "C21", "title": "get_final_state returns exactly the requested concepts", "statement": "get_final_state(names=ns) returns the existing concepts named in ns; otherwise 'any' returns all concepts, 'target' exactly the decision/regression ones, another type exactly the concepts of that type; each with the value get_concept_value reports.", "quantifier": "every map and argument", "why_tests_cant": "All maps and filters.", "anchors": ["py_fcm/fcm.py:get_final_state", "py_fcm/fcm.py:get_concept_value"]}
{"id": "C22", "title": "is_stable reports whether the last step moved any concept", "statement": "is_stable() never raises, is False before any step was run and otherwise is True exactly if every concept's last two recorded values differ by at most stability_diff.", "quantifier": "every reachable map state", "why_tests_cant": "Must hold at every point of every history, e.g. between a run and a later add_concept.", "anchors": ["py_fcm/fcm.py:is_stable"]}
{"id": "C23", "title": "fuzzy_set interpolates linearly between the described points", "statement": "For a strictly increasing val_list, fuzzy_set returns the membership at a listed value, the first/last membership outside the range, and the linear interpolation of the neighbouring memberships in between.", "quantifier": "every value, list length, val_list and membership list", "why_tests_cant": "Unbounded list lengths and real inputs, incl. negative ones.", "anchors": ["py_fcm/utils/functions.py:fuzzy_set"]}
{"id": "C24", "title": "dual_quick_sort sorts and keeps values paired", "statement": "dual_quick_sort terminates, leaves the main array sorted ascending, and permutes both arrays by the same permutation.", "quantifier": "every pair of equally long arrays over a total order", "why_tests_cant": "All array lengths and contents.", "anchors": ["py_fcm/utils/functions.py:__partition", "py_fcm/utils/functions.py:dual_quick_sort"]}
{"id": "C25", "title": "Activation dictionaries are scaled into [0,1]", "statement": "add_concept scales the (sorted) val_list of a fuzzy concept into [0,1], monotonically, with the largest value mapped to 1, keeping each value's membership.", "quantifier": "every activation dictionary", "why_tests_cant": "All lists, signs and magnitudes.", "anchors": ["py_fcm/fcm.py:__process_activation_dict", "py_fcm/fcm.py:add_concept"]}
{"id": "C26", "title": "Sigmoids are monotone, symmetric and their slope fit is exact", "statement": "sigmoid and sigmoid_hip are monotone in the input for positive slope; sigmoid(-x) = 1 - sigmoid(x); sigmoid(x, sigmoid_lambda(x, y)) = y for 0<y<1 and sigmoid_hip(x, sigmoid_hip_lambda(x, y)) = y for 0<=y<1, x>0.", "quantifier": "every real input, slope and target", "why_tests_cant": "Laws over the reals.", "anchors": ["py_fcm/utils/functions.py:sigmoid", "py_fcm/utils/functions.py:sigmoid_hip", "py_fcm/utils/functions.py:sigmoid_lambda", "py_fcm/utils/functions.py:sigmoid_hip_lambda", "py_fcm/fcm.py:add_relation"]}
{"id": "C27", "title": "Function names resolve consistently", "statement": "For every string, the callable and the vectorised constant are both defined or both undefined, dispatching the constant computes the same function, and every advertised function name resolves.", "quantifier": "every string", "why_tests_cant": "All strings; the three tables are maintained by hand.", "anchors": ["py_fcm/utils/functions.py:Activation", "py_fcm/utils/functions.py:Excitation", "py_fcm/utils/functions.py:Decision", "py_fcm/utils/functions.py:__exec_actv_function"]}
{"id": "C28", "title": "JSON export followed by import reproduces the map", "statement": "from_json(m.to_json()) succeeds and yields a map with the same concepts, properties, activations, relations and settings, that runs to the same result.", "quantifier": "every map", "why_tests_cant": "Round trip over all maps.", "anchors": ["py_fcm/fcm.py:to_json", "py_fcm/loader.py:from_json"]}
{"id": "C29", "title": "from_json builds what the document says", "statement": "from_json either raises with the prefix 'Cannot load json data due: ' or returns a map whose concepts are the documented ones in order, whose relations are the listed ones with known ends in order, and whose settings are the given or documented default values.", "quantifier": "every document", "why_tests_cant": "All documents.", "anchors": ["py_fcm/loader.py:from_json"]}
{"id": "C30", "title": "join_maps joins the concept sets", "statement": "join_maps with 'union' yields exactly the concepts occurring in some input map and with 'intersection' exactly those occurring in all of them (minus zero-valued ones if ignore_zeros).", "quantifier": "every non-empty sequence of maps", "why_tests_cant": "Any number of maps and concepts.", "anchors": ["py_fcm/loader.py:join_maps"]}
{"id": "C31", "title": "join_maps aggregates activations as requested", "statement": "Each joined concept starts from the highest / lowest / average of its activations over the maps containing it; lowest <= average <= highest.", "quantifier": "every sequence of maps", "why_tests_cant": "Any number of maps.", "anchors": ["py_fcm/loader.py:join_maps"]}
{"id": "C32", "title": "join_maps aggregates relations as requested", "statement": "The joined map has exactly one relation o->d for each pair related in some input map and present in the result, with the highest / lowest / average of the weights given to that pair.", "quantifier": "every sequence of maps and all concept names", "why_tests_cant": "Names are concatenated with a separator and split again; only some names break it.", "anchors": ["py_fcm/loader.py:join_maps"]}
{"id": "C33", "title": "join_maps does not depend on the order of the maps", "statement": "Permuting the input maps changes neither the set of concepts, nor their values, nor the relations and weights of the result.", "quantifier": "every sequence of maps and every permutation", "why_tests_cant": "All permutations.", "anchors": ["py_fcm/loader.py:join_maps"]}
{"id": "C34", "title": "join_maps rejects unknown strategies and handles the trivial inputs", "statement": "An unknown strategy raises naming the strategy whatever the maps; the empty sequence yields the default map.", "quantifier": "every strategy string and map sequence", "why_tests_cant": "All strings.", "anchors": ["py_fcm/loader.py:join_maps"]}
{"id": "C35", "title": "Discrete feature matrices are one-hot", "statement": "gen_discrete_feature_matrix has a 1 at (v, i) exactly where row i holds value v; over np.unique values every column contains exactly one 1.", "quantifier": "every column of data", "why_tests_cant": "All data.", "anchors": ["py_fcm/learning/utils.py:gen_discrete_feature_matrix"]}
{"id": "C36", "title": "Contingency coefficients count every sample once", "statement": "calc_concepts_coefficient's four coefficients sum to the number of samples, have the features' totals as marginals, are non-negative for memberships in [0,1], and the second tuple is the first with the roles swapped.", "quantifier": "every pair of equally long membership vectors", "why_tests_cant": "All vectors.", "anchors": ["py_fcm/learning/utils.py:calc_concepts_coefficient"]}
{"id": "C37", "title": "Relation measures are bounded", "statement": "supp, conf, simple and pos_inf return values in [-1,1] (supp and conf in [0,1]) for contingency tables with a present premise.", "quantifier": "every contingency table", "why_tests_cant": "All tables, incl. the fractional ones of fuzzy features.", "anchors": ["py_fcm/utils/functions.py:Relation"]}
{"id": "C38", "title": "Learned maps have no self relations and no parallel relations", "statement": "In a map built by build_fcm no concept is related to itself and no ordered pair of concepts carries two relations.", "quantifier": "every dataset and every generator configuration", "why_tests_cant": "All datasets and feature orders.", "anchors": ["py_fcm/learning/association.py:build_fcm", "py_fcm/learning/association.py:__def_two_feat_relation", "py_fcm/learning/association.py:__def_inner_feat_relations"]}
{"id": "C39", "title": "Values of one feature exclude each other", "statement": "In a learned map each ordered pair of distinct values of one feature is related with exactly the exclusion weight (nothing if it is 0), and relations between different features respect the requested feature/target restriction.", "quantifier": "every dataset", "why_tests_cant": "All datasets.", "anchors": ["py_fcm/learning/association.py:__def_inner_feat_relations", "py_fcm/learning/association.py:__def_feat_target_relation"]}
{"id": "C40", "title": "fit_inclination takes effect", "statement": "AssociationBasedFCM(fit_inclination=True).build_fcm(...) fits the slope of each related concept's sigmoid to the inclination.", "quantifier": "every dataset", "why_tests_cant": "Option plumbing for all datasets.", "anchors": ["py_fcm/learning/association.py:__init__", "py_fcm/learning/association.py:build_fcm", "py_fcm/fcm.py:add_relation"]}
{"id": "C41", "title": "Learned concept names can be parsed back", "statement": "The feature and value of a learned concept are recovered from its name.", "quantifier": "every feature name, value and separator", "why_tests_cant": "All strings, incl. those overlapping the separator.", "anchors": ["py_fcm/learning/association.py:__name_concept", "py_fcm/learning/association.py:__get_feature_and_info"]}
{"id": "C42", "title": "predict returns the most activated class", "statement": "For each target feature predict returns the label of a concept with the highest final activation, and that label is one of the training labels, with its type.", "quantifier": "every map and label set", "why_tests_cant": "All activations and labels.", "anchors": ["py_fcm/learning/association.py:__get_discrete_feature_result", "py_fcm/learning/association.py:get_inference_result"]}
{"id": "C43", "title": "Predictions do not depend on earlier predictions", "statement": "predict on several rows gives for each row the prediction that row would get alone.", "quantifier": "every fitted estimator and every sequence of rows", "why_tests_cant": "State leaking between rows needs particular histories.", "anchors": ["py_fcm/fcm_estimator.py:predict", "py_fcm/fcm.py:clear_execution", "py_fcm/fcm.py:init_concept"]}
{"id": "C44", "title": "score is the accuracy", "statement": "score(x, y) is the fraction of matching labels, in [0,1].", "quantifier": "every labelled dataset", "why_tests_cant": "All datasets.", "anchors": ["py_fcm/fcm_estimator.py:score"]}
{"id": "C45", "title": "Every feature value of a predicted row is taken into account", "statement": "init_concept_by_feature_data activates the concept that training created for that value.", "quantifier": "every feature type and value seen in training", "why_tests_cant": "All value types.", "anchors": ["py_fcm/learning/association.py:init_concept_by_feature_data", "py_fcm/learning/association.py:__name_concept"]}
{"id": "C46", "title": "fuzzy c-means memberships are a fuzzy partition", "statement": "After every iteration each sample's memberships are positive and sum to 1.", "quantifier": "every dataset, cluster count, exponent and start", "why_tests_cant": "All data and iterations.", "anchors": ["py_fcm/learning/utils.py:normalize_columns", "py_fcm/learning/utils.py:normalize_power_columns", "py_fcm/learning/discretization/fuzzy_cmeans.py:_cmeans0", "py_fcm/learning/discretization/fuzzy_cmeans.py:cmeans"]}
{"id": "C47", "title": "fuzzy c-means centres stay inside the data range", "statement": "Every cluster centre lies between the smallest and the largest sample.", "quantifier": "every one-dimensional dataset and iteration", "why_tests_cant": "All data.", "anchors": ["py_fcm/learning/discretization/fuzzy_cmeans.py:_cmeans0"]}
{"id": "C48", "title": "robust-learning c-means keeps a valid mixture", "statement": "At every iteration the mixing proportions are positive and sum to 1, memberships of each sample sum to 1, the number of clusters never grows and never reaches 0, and no division by zero or logarithm of a non-positive number occurs.", "quantifier": "every dataset of at least two samples and every iteration", "why_tests_cant": "Invariant over all iterations.", "anchors": ["py_fcm/learning/discretization/rl_fuzzy_cmeans.py:rl_fuzzy_cmeans", "py_fcm/learning/discretization/rl_fuzzy_cmeans.py:_update_alpha", "py_fcm/learning/discretization/rl_fuzzy_cmeans.py:_resize_references", "py_fcm/learning/discretization/rl_fuzzy_cmeans.py:_compute_u", "py_fcm/learning/discretization/rl_fuzzy_cmeans.py:_update_r3"]}
{"id": "C49", "title": "The forced three-cluster description is a fuzzy partition", "statement": "__create_three_clusters returns a sorted value list and memberships in [0,1] that sum to 1 for every value.", "quantifier": "every sorted list of at least ten values", "why_tests_cant": "All lengths.", "anchors": ["py_fcm/learning/discretization/__init__.py:__create_three_clusters"]}
{"id": "C50", "title": "The gap method finds fewer clusters than the maximum", "statement": "Change points are strictly increasing sample positions and the estimated number of clusters is smaller than max_clusters.", "quantifier": "every sampled curve and every max_clusters", "why_tests_cant": "All curves.", "anchors": ["py_fcm/learning/discretization/clusters_estimation.py:__estimate_change_points", "py_fcm/learning/discretization/clusters_estimation.py:estimate_clusters"]}
{"id": "C51", "title": "Discretization yields at least two clusters over the distinct values", "statement": "fuzzy_feature_discretization rejects fewer than ten distinct values and otherwise returns at least two clusters.", "quantifier": "every column and every clustering outcome", "why_tests_cant": "All clustering outcomes.", "anchors": ["py_fcm/learning/discretization/__init__.py:fuzzy_feature_discretization", "py_fcm/learning/discretization/clusters_estimation.py:fuzzy_silhouette", "py_fcm/learning/discretization/clusters_estimation.py:cfe"]}
{"id": "C52", "title": "Loaded CSV datasets are rectangular", "statement": "load_csv_dataset keeps exactly the rows with as many fields as the header, in order, so that every column has the same length.", "quantifier": "every file content", "why_tests_cant": "All files.", "anchors": ["py_fcm/__init__.py:load_csv_dataset", "py_fcm/utils/__init__.py:load_dataset"]}
{"id": "C53", "title": "Fuzzy.fuzzyfication stays within the memberships", "statement": "fuzzyfication returns a value between the smallest and the largest membership (memberships in [-1,1]) and the exact membership at a listed value.", "quantifier": "every value and description", "why_tests_cant": "All lists.", "anchors": ["py_fcm/utils/functions.py:Fuzzy.fuzzyfication"]}
{"id": "C54", "title": "A map at rest stays at rest", "statement": "A map whose activations are all 0 and whose concepts use sigmoid_hip, saturation, gceq, lceq or relm with KOSKO excitation keeps all activations at 0.", "quantifier": "every topology", "why_tests_cant": "All maps.", "anchors": ["py_fcm/fcm.py:__iterative_inference", "py_fcm/utils/functions.py:sigmoid_hip"]}
{"id": "C55", "title": "An estimator refuses to predict before fit", "statement": "predict and score raise before the first successful fit and clear the previous topology on refit.", "quantifier": "every history of estimator calls", "why_tests_cant": "All histories.", "anchors": ["py_fcm/fcm_estimator.py:fit", "py_fcm/fcm_estimator.py:predict", "py_fcm/fcm_estimator.py:score"]}
{"id": "C56", "title": "The fuzzy normaliser is the sum of the incoming weights", "statement": "The incoming weight sum kept with every concept (used to normalise the input of fuzzy concepts in both engines) is the sum of the weights of the relations that enter the concept.", "quantifier": "every history of API calls", "why_tests_cant": "The sum is maintained incrementally by add_relation while the relations live in a separate list; only an invariant over all call histories shows that the two cannot drift apart.", "anchors": ["py_fcm/fcm.py:372-409", "py_fcm/fcm.py:185-191", "py_fcm/fcm.py:517-528"]}
{"id": "C57", "title": "load_dataset loads every rectangular csv file and rejects ragged ones", "statement": "load_dataset on csv text whose rows all have the header's field count returns the distinct rows, each field read as a Python literal where it parses and as text otherwise; a file with any row of another length is rejected.", "quantifier": "every csv text", "why_tests_cant": "The files in the tests are fixed; the claim ranges over every content, where the summary printed after loading depends on which columns ever parsed as a literal.", "anchors": ["py_fcm/utils/__init__.py:30-66", "py_fcm/utils/__init__.py:68-88"]}
{"id": "C58", "title": "Factorising a column loses nothing", "statement": "When a loader replaces a column by its factorisation codes, two entries get equal codes exactly if their values were equal, and the list of distinct values gives every entry back.", "quantifier": "every column of values", "why_tests_cant": "Quantified over every column; an index slip shows only for particular repetition patterns.", "anchors": ["py_fcm/__init__.py:43-46", "py_fcm/utils/__init__.py:70-79"]}
{"id": "C59", "title": "Learned relations follow the co-occurrence counts", "statement": "For a value u of one categorical column and a value v of another, the map built by build_fcm relates the concept of u to the concept of v with weight w exactly if the evaluation measure of their co-occurrence counts passes the threshold, w is the signed causality measure of those counts and is not 0, and the configuration asks for relations in that direction between the two features.", "quantifier": "every dataset whose concept names can be told apart, every configuration of measures, thresholds, targets and relation restrictions, every pair of values", "why_tests_cant": "Ranges over all datasets and all configurations; a wrong count, a swapped direction or a wrong comparison shows only for particular tables.", "anchors": ["py_fcm/learning/association.py:__def_two_feat_relation", "py_fcm/learning/association.py:__def_relation_weight", "py_fcm/learning/utils.py:calc_concepts_coefficient"]}
{"id": "C60", "title": "Learning from categorical columns does not fail", "statement": "build_fcm on a rectangular dataset whose columns are categorical returns a map without raising, for the default configuration and for every configuration whose measures do not raise on the counts.", "quantifier": "every rectangular dataset of categorical columns, every choice of targets", "why_tests_cant": "Ranges over all datasets: zero counts are the inputs on which the divisions of the measures could fail.", "anchors": ["py_fcm/learning/association.py:build_fcm", "py_fcm/utils/functions.py:Relation"]}
{"id": "C61", "title": "Refitting forgets the past", "statement": "After any history of fit, predict and score calls, a fit that returns leaves the estimator with the features and the map that a new estimator with the same settings gets from the same data (up to the engine's private cache), and if the map has concepts every later prediction is the one the new estimator would make.", "quantifier": "every history of estimator calls, every dataset", "why_tests_cant": "Leaks of earlier data show only for particular histories; no finite set of histories excludes them.", "anchors": ["py_fcm/fcm_estimator.py:fit", "py_fcm/learning/association.py:reset", "py_fcm/fcm.py:clear_all"]}
{"id": "C62", "title": "A nearer centre gets a higher membership", "statement": "In one iteration of fuzzy c-means, whatever the memberships before, a sample belongs more to the centre it is nearer to: if its distance to one new centre is smaller than to another, its new membership of the first is at least that of the second, for every fuzzifier above one.", "quantifier": "every data matrix, every membership matrix, every fuzzifier above one", "why_tests_cant": "An inverted exponent or normalisation along the wrong axis still gives partitions; only the comparison for all samples and centres rules it out.", "anchors": ["py_fcm/learning/discretization/fuzzy_cmeans.py:_cmeans0", "py_fcm/learning/utils.py:normalize_power_columns"]}
{"id": "C63", "title": "The fuzzy partition coefficient is between 1/c and 1", "statement": "The fuzzy partition coefficient returned by cmeans for c clusters lies between 1/c and 1.", "quantifier": "every data matrix, every start partition, every number of clusters", "why_tests_cant": "The bounds are an inequality over all partitions (Cauchy-Schwarz), not checkable by examples.", "anchors": ["py_fcm/learning/discretization/fuzzy_cmeans.py:_fp_coeff", "py_fcm/learning/discretization/fuzzy_cmeans.py:cmeans"]}
{"id": "C64", "title": "RlFuzzyCmeans.predict picks the first nearest centroid", "statement": "predict assigns each sample the smallest index among the centroids at minimal distance from it.", "quantifier": "every set of centroids and every sample", "why_tests_cant": "Ties and the order of comparison matter; all sets of centroids must be covered.", "anchors": ["py_fcm/learning/discretization/rl_fuzzy_cmeans.py:predict"]}
{"id": "C65", "title": "Centres of robust-learning c-means stay within the data", "statement": "Every coordinate of every centre found by RlFuzzyCmeans lies between the least and the greatest value of that coordinate in the data.", "quantifier": "every data matrix, every number of iterations", "why_tests_cant": "A statement about all iterations of a loop whose number of clusters changes.", "anchors": ["py_fcm/learning/discretization/rl_fuzzy_cmeans.py:_update_v"]}
{"id": "C66", "title": "Learning from any table succeeds", "statement": "With inferred types, build_fcm returns a map without raising for every rectangular table of texts, truth values, integers and numbers, with every discretization strategy, for the default configuration and for every configuration whose measures return on non-negative counts that are not all zero.", "quantifier": "every rectangular table, every choice of targets, every discretization strategy", "why_tests_cant": "Ranges over all tables and all outcomes of the clustering; divisions by zero counts or zero distances are the inputs on which it could fail.", "anchors": ["py_fcm/learning/association.py:build_fcm", "py_fcm/learning/discretization/__init__.py:fuzzy_feature_discretization"]}
{"id": "C67", "title": "Memberships of the samples of a numeric column", "statement": "After learning, a numeric column is described by at least two clusters; every sample's memberships lie between 0 and 1, depend only on the sample's number, and add up to one, except for samples of at most one particular number, where they add up to at least 5/6.", "quantifier": "every table with numeric columns, every discretization strategy", "why_tests_cant": "Involves all data, the iterative clustering and the interpolation of memberships at once.", "anchors": ["py_fcm/learning/association.py:__gen_continuous_concepts", "py_fcm/utils/functions.py:fuzzy_set"]}
{"id": "C68", "title": "Weights of a learned map", "statement": "If the weight of a relation is a confidence (the default), every relation of a learned map either joins two values of one column with the exclusion weight, or has a non-zero weight between -1 and 1, positive if no sign function is configured.", "quantifier": "every table, every choice of targets, every discretization strategy", "why_tests_cant": "A bound on all weights of all learned maps.", "anchors": ["py_fcm/learning/association.py:__def_relation_weight", "py_fcm/learning/association.py:__def_inner_feat_relations"]}
{"id": "C69", "title": "The activation functions are the documented functions", "statement": "biestate is 1 exactly on the positive numbers; threestate is 0 up to 1/3, 1/2 up to 2/3 and 1 above; saturation and relm (positive slope) cut the (scaled) input off at 0 and 1; gceq (lceq) gives 0 below (above) its weight and otherwise the input cut off at -1 and 1; sigmoid is the logistic function; sigmoid_hip is tanh of half the scaled input, constant below -500.", "quantifier": "every input, every parameter", "why_tests_cant": "Boundary inputs of piecewise functions over all reals.", "anchors": ["py_fcm/utils/functions.py:bistate", "py_fcm/utils/functions.py:threestate", "py_fcm/utils/functions.py:sigmoid_hip", "py_fcm/utils/functions.py:greater_cond_equality"]}
{"id": "C70", "title": "Relation measures are the statistics they are named after", "statement": "On the four joint counts of any non-empty sample: supp is the frequency of premise and conclusion, conf the frequency of the conclusion among the observations with the premise, lift that confidence relative to the frequency of the conclusion, odr the odds ratio and rodr the ratio of agreeing to differing observations; lift exceeds 1 exactly if the odds ratio does, which means positive association; pos_inf is positive, negative or zero according to which influence prevails and exists exactly if the premise was observed.", "quantifier": "every finite sample", "why_tests_cant": "Quantifies over all samples; the zero-count branches are the ones tests miss.", "anchors": ["py_fcm/utils/functions.py:Relation.supp", "py_fcm/utils/functions.py:Relation.conf", "py_fcm/utils/functions.py:Relation.lift", "py_fcm/utils/functions.py:Relation.odr", "py_fcm/utils/functions.py:Relation.pos_inf", "py_fcm/utils/functions.py:Relation.bayes"]}
{"id": "C71", "title": "An accepted add_concept stores what was asked for", "statement": "If add_concept returns, settings, relations and all other concepts are unchanged and the named concept has value 0, trajectory [0], no outgoing relations, and the given activity, memory flag, excitation, type and activation function, each missing (or invalid) one being the default concept's; a fuzzy concept stores its description in increasing order and is evaluated on the scaled one.", "quantifier": "every map, every argument combination", "why_tests_cant": "All combinations of optional arguments and default-concept states.", "anchors": ["py_fcm/fcm.py:add_concept"]}
{"id": "C72", "title": "Stored names and stored functions agree", "statement": "In every reachable state the decision function, the map's activation function and each concept's activation and excitation functions are the ones their stored names stand for, and each stored type is a valid one; if no call raised, every concept's argument vector holds the arguments of its function.", "quantifier": "every sequence of calls, including ones that raise", "why_tests_cant": "An invariant over all call histories; to_json writes the names while inference uses the functions.", "anchors": ["py_fcm/fcm.py:add_concept", "py_fcm/fcm.py:set_concept_properties", "py_fcm/fcm.py:set_map_activation_function", "py_fcm/fcm.py:set_map_decision_function"]}
{"id": "C73", "title": "Learning does not depend on the order of the rows", "statement": "build_fcm on a rectangular table returns the same map, and describes the same features with the same concepts, for every order of the rows; it raises in one order if and only if it raises in every other. An estimator fitted on reordered rows has the same map and predicts the same labels for every input.", "quantifier": "every table, every permutation of its rows, every configuration and every measure, every discretization that looks at the set of the values only (as the library's does)", "why_tests_cant": "A relation between two runs, for all tables and all permutations.", "anchors": ["py_fcm/learning/association.py:build_fcm", "py_fcm/learning/utils.py:calc_concepts_coefficient", "py_fcm/learning/discretization/__init__.py:fuzzy_feature_discretization", "py_fcm/fcm_estimator.py:fit"]}
{"id": "C74", "title": "Repeating every row leaves the learned map unchanged", "statement": "If every row of the table is repeated the same number of times, in any order, build_fcm returns the same map, and a fitted estimator predicts the same labels, whichever of the relation measures is used.", "quantifier": "every table, every number of copies, every order of the copies", "why_tests_cant": "A relation between two runs, for all tables and numbers of copies; whether it holds depends on the measure.", "anchors": ["py_fcm/learning/association.py:build_fcm", "py_fcm/utils/functions.py:Relation", "py_fcm/learning/utils.py:calc_concepts_coefficient"]}
{"id": "C75", "title": "run_inference succeeds", "statement": "When every concept is initialised, the functions of the concepts accept every input and the decision function is not EXITED, run_inference of the iterative engine returns normally; in particular it does for every map without fuzzy concepts whose activation parameters are proper.", "quantifier": "every reachable map, every number of concepts and relations, every parameter", "why_tests_cant": "Absence of exceptions is a claim about every map and every intermediate value of the run.", "anchors": ["py_fcm/fcm.py:run_inference", "py_fcm/fcm.py:__keep_execution", "py_fcm/utils/functions.py:Activation"]}
{"id": "C76", "title": "A change affects only the concepts downstream of it", "statement": "Initialising a concept with another value, or adding a relation into it, changes the recorded activations of a concept only if there is a path of relations to that concept from the changed one: at every step both runs reach, all others have the same activations; with stop_at_stabilize=False their whole trajectories and final values are the same.", "quantifier": "every two runs of the iterative engine on maps that agree on a set of concepts closed under predecessors; every topology, every value", "why_tests_cant": "A relation between two executions, for every topology and every path.", "anchors": ["py_fcm/fcm.py:init_concept", "py_fcm/fcm.py:add_relation", "py_fcm/fcm.py:run_inference"]}
{"id": "C77", "title": "Excitatory maps are monotone", "statement": "In a map whose relations all have weights of at least 0 and whose activation functions are monotone, raising the initial activation of a concept, or adding a relation of weight at least 0 from a concept with non-negative activations, never lowers any activation at any step both runs reach; with stop_at_stabilize=False it never lowers a final value, whichever decision function is used.", "quantifier": "every map over the reals with such relations and functions (biestate, threestate, saturation, sigmoid, sigmoid_hip, relm, gceq with threshold at least 0, lceq with threshold at most 0), every two runs of the iterative engine", "why_tests_cant": "A relation between two executions, for all topologies, weights and values.", "anchors": ["py_fcm/fcm.py:init_concept", "py_fcm/fcm.py:add_relation", "py_fcm/fcm.py:run_inference", "py_fcm/utils/functions.py:Activation", "py_fcm/utils/functions.py:Decision"]}
{"id": "C78", "title": "Contracting maps forget their start and stop", "statement": "If for every concept the slope of its activation function times the sum of the absolute weights of the relations from active concepts into it (each doubled for a PAPAGEORGIUS origin, plus 1 or 2 for memory) is at most q, then two runs of the same map differ after t steps by at most q^t times their greatest initial difference. With stop_at_stabilize, starts in [-1,1] and 2*q^n at most stability_diff, the run has at most n + 1 + extra_steps entries; for q < 1 and stability_diff > 0 there is such an n.", "quantifier": "every map over the reals built through the API whose concepts use saturation, sigmoid, sigmoid_hip or relm (lambda above 0), every q, every two runs of the iterative engine", "why_tests_cant": "A quantitative bound over all topologies, weights, starts and run lengths.", "anchors": ["py_fcm/fcm.py:run_inference", "py_fcm/fcm.py:is_stable", "py_fcm/utils/functions.py:Activation", "py_fcm/utils/functions.py:Excitation"]}
{"id": "C79", "title": "A contracting map has one equilibrium and inference finds it", "statement": "If the q of C78 is below 1 the map has exactly one equilibrium, a state that the update step leaves unchanged; every run approaches it geometrically with ratio q; and with decision LAST, stop_at_stabilize, extra_steps of at least 2 and enough iterations allowed, every final value is within stability_diff / (1 - q) of it.", "quantifier": "every such map over the reals, every start (in [-1,1] for the last part), every run of the iterative engine", "why_tests_cant": "Existence and uniqueness of a fixed point and an error bound for all topologies and weights.", "anchors": ["py_fcm/fcm.py:run_inference", "py_fcm/fcm.py:is_stable", "py_fcm/utils/functions.py:Decision", "py_fcm/fcm.py:get_final_state"]}
{"id": "C80", "title": "One round of fuzzy c-means is the textbook update", "statement": "_cmeans0 returns as centres the means of the samples weighted with the memberships (normalised per sample, at least eps) to the power m, as objective the sum of these weights times the squared distances (at least eps), and, as long as no distance is below eps times another distance of the same sample, the memberships 1 / sum_k (d_i/d_k)^(2/(m-1)).", "quantifier": "every data column, every membership matrix of fitting shape, every exponent m other than 1, every eps > 0, over the reals", "why_tests_cant": "The algebraic form for all inputs; tests compare a few matrices.", "anchors": ["py_fcm/learning/discretization/fuzzy_cmeans.py:_cmeans0", "py_fcm/learning/utils.py:normalize_power_columns", "py_fcm/learning/utils.py:normalize_columns", "py_fcm/learning/utils.py:one_dimension_distance"]}
{"id": "C81", "title": "The fuzzy c-means objective never increases", "statement": "The objective history that cmeans returns has one value per round and never increases as long as no membership, distance or ratio of distances is raised to eps; if only distances are raised to eps it grows by at most n * eps^2 per round.", "quantifier": "every data column, every start, every exponent m > 1, every number of rounds, over the reals", "why_tests_cant": "The descent property of an optimisation loop for all inputs and all rounds.", "anchors": ["py_fcm/learning/discretization/fuzzy_cmeans.py:cmeans", "py_fcm/learning/discretization/fuzzy_cmeans.py:_cmeans0"]}
{"id": "C82", "title": "Concept names carry no meaning", "statement": "If a client makes the same calls on a new map under other concept names (different concepts keeping different names), then at every moment the map reports under the new names the same values, the same recorded trajectories, the same relations, the same final states in the same order and the same stability, and every call raises for one client exactly when it raises for the other.", "quantifier": "every injective renaming, every constructor call, every sequence of calls (also after exceptions), both engines, every arithmetic", "why_tests_cant": "Equivariance under all renamings of all call sequences; tests use a handful of fixed names.", "anchors": ["py_fcm/fcm.py:add_concept", "py_fcm/fcm.py:add_relation", "py_fcm/fcm.py:run_inference", "py_fcm/fcm.py:get_final_state", "py_fcm/fcm.py:get_concept_value", "py_fcm/fcm.py:__vectorized_inference"]}
{"id": "C83", "title": "Loading uses the public API and a second round trip loses nothing", "statement": "A map read by from_json is a map that public calls without exceptions build, each concept being added before it is mentioned; and although to_json drops properties, it drops them only once: exporting the map that from_json read from an exported document never fails, and reading that export gives the same map again.", "quantifier": "every document from_json accepts (first part); every reachable map that to_json exports and from_json reads (second part), every arithmetic", "why_tests_cant": "Idempotence of a lossy round trip for all maps and the reachability of all loaded maps.", "anchors": ["py_fcm/loader.py:from_json", "py_fcm/fcm.py:to_json", "py_fcm/fcm.py:add_concept", "py_fcm/fcm.py:add_relation"]}
{"id": "C84", "title": "A list of rows is the table with positional column names", "statement": "fit, predict and score treat a list of rows (and a list of target values or rows) exactly like the data frame with the same columns named by their positions, the target columns being numbered on from the input columns.", "quantifier": "every number of rows and columns, every column type, every estimator state, every configuration", "why_tests_cant": "Equality of behaviour for all matrices; tests use one small array.", "anchors": ["py_fcm/fcm_estimator.py:__to_data_frame", "py_fcm/fcm_estimator.py:__validate_dual_input", "py_fcm/fcm_estimator.py:fit", "py_fcm/fcm_estimator.py:predict"]}
{"id": "C85", "title": "The columns of y are the targets", "statement": "After fit(x, y) every concept of a column of y is a target concept (decision or regression) and every concept of a column of x is an input concept (simple or fuzzy).", "quantifier": "every pair of data frames with readable names, every history of the estimator", "why_tests_cant": "Roles of all columns for all tables, including shared column names.", "anchors": ["py_fcm/fcm_estimator.py:fit", "py_fcm/learning/association.py:__gen_discrete_concepts", "py_fcm/learning/association.py:__gen_continuous_concepts"]}
{"id": "C86", "title": "Which tables the estimator accepts", "statement": "A dictionary of columns is treated like the data frame with those columns; fit learns from any data frame or rectangular matrix with any columns as targets, refuses everything else and then leaves the estimator unchanged; the rows of a data frame are predicted cell by cell.", "quantifier": "every input object, every estimator state", "why_tests_cant": "Acceptance and frame conditions for all kinds of input.", "anchors": ["py_fcm/fcm_estimator.py:__to_data_frame", "py_fcm/fcm_estimator.py:__validate_dual_input", "py_fcm/fcm_estimator.py:fit", "py_fcm/fcm_estimator.py:predict", "py_fcm/fcm_estimator.py:score"]}
{"id": "C87", "title": "plot_execution draws the recorded trajectories", "statement": "plot_execution draws one curve for each concept of the requested type (\"target\": decision and regression concepts, \"all\": all concepts), showing the first limit recorded values of the concept, or all of them if limit is not positive.", "quantifier": "every map built by public calls, every limit, every type", "why_tests_cant": "The drawn data for all maps and limits.", "anchors": ["py_fcm/fcm.py:plot_execution"]}
{"id": "C88", "title": "plot_topology draws the relations", "statement": "The graph drawn by plot_topology has exactly the concepts of the map as nodes and joins two of them exactly if there is a relation from one to the other.", "quantifier": "every map built by public calls", "why_tests_cant": "The drawn graph for all histories of calls.", "anchors": ["py_fcm/fcm.py:plot_topology", "py_fcm/fcm.py:add_relation", "py_fcm/fcm.py:add_concept"]}
{"id": "C89", "title": "The silhouette score is the fuzzy silhouette", "statement": "fuzzy_silhouette rates a clustering by the fuzzy silhouette: the mean of (b - a) / max(a, b) over the samples, weighted with the difference of the two highest memberships (to the power alpha), where a is the distance of the sample to the members of its own cluster and b that to the members of the nearest other cluster. The score lies in [-1, 1] and no sample makes it divide by zero.", "quantifier": "every list of samples, every result of fuzzy c-means with at least two clusters", "why_tests_cant": "Equality with an independent formula and bounds for all data.", "anchors": ["py_fcm/learning/discretization/clusters_estimation.py:fuzzy_silhouette"]}
{"id": "C90", "title": "The number of clusters is the best rated", "statement": "With the strategies cmeans-sil and cmeans-cfe the number of clusters of a numeric column is the one with the highest score among 2, …, max_clusters, the smallest one if several have it; if no number has a positive score, the column is split into three forced clusters.", "quantifier": "every column, every number of clusters, every scoring function, every carrier with a linear order", "why_tests_cant": "Optimality over all candidate numbers for all data.", "anchors": ["py_fcm/learning/discretization/clusters_estimation.py:fuzzy_silhouette", "py_fcm/learning/discretization/clusters_estimation.py:cfe", "py_fcm/learning/discretization/clusters_estimation.py:estimate_clusters", "py_fcm/learning/discretization/__init__.py:fuzzy_feature_discretization"]}
{"id": "C91", "title": "The cfe score is the combined fuzzy entropy", "statement": "cfe rates a clustering by separation times dispersion between clusters over fuzziness times dispersion within clusters: separation is the mean symmetric fuzzy cross entropy of two clusters, fuzziness the normalised entropy of the memberships, the dispersions weighted sums of squared distances. Fuzziness lies in (0, 1]; separation is not negative and zero exactly if all clusters have the same memberships.", "quantifier": "every list of samples, every result of fuzzy c-means", "why_tests_cant": "Equality with an independent formula and sharp bounds for all data.", "anchors": ["py_fcm/learning/discretization/clusters_estimation.py:cfe", "py_fcm/learning/discretization/clusters_estimation.py:__fuzzy_cross_entropy"]}
{"id": "C92", "title": "What fuzzy c-means returns", "statement": "cmeans does rounds of the update until a round changes the memberships by less than error (Frobenius norm), at most maxiter - 1 rounds, and returns the centres, the memberships and the distances of the last round, the objective of every round, the number of rounds and the partition coefficient (the mean sum of squared memberships).", "quantifier": "every list of samples, every initial partition, every error bound and maximal number of rounds", "why_tests_cant": "Describes the whole run for all inputs, including when it stops.", "anchors": ["py_fcm/learning/discretization/fuzzy_cmeans.py:cmeans", "py_fcm/learning/discretization/fuzzy_cmeans.py:_cmeans0", "py_fcm/learning/discretization/fuzzy_cmeans.py:_fp_coeff"]}
{"id": "C93", "title": "The rounds of robust-learning c-means", "statement": "rl_fuzzy_cmeans starts with every sample as its own cluster and does rounds until one cluster is left or the centres of the same number of clusters move by less than error. A round computes memberships as Gaussians of the distances weighted with the proportions of the clusters, new proportions from the mean memberships and the entropy (base 2) of the old ones, drops the clusters with a proportion below 1/n, scales the rest to sum 1 and moves the centres to the weighted means. The three rates are exp(-t/10), exp(-t/100) and the minimum of two bounds, zero from round 100 on when no cluster was dropped.", "quantifier": "every list of at least two samples, every error bound and maximal number of rounds", "why_tests_cant": "The complete dynamics for all data.", "anchors": ["py_fcm/learning/discretization/rl_fuzzy_cmeans.py:rl_fuzzy_cmeans", "py_fcm/learning/discretization/rl_fuzzy_cmeans.py:_compute_u", "py_fcm/learning/discretization/rl_fuzzy_cmeans.py:_update_alpha", "py_fcm/learning/discretization/rl_fuzzy_cmeans.py:_update_r3", "py_fcm/learning/discretization/rl_fuzzy_cmeans.py:_resize_references", "py_fcm/learning/discretization/rl_fuzzy_cmeans.py:_update_v"]}
{"id": "C94", "title": "When the vectorised engine returns", "statement": "With debug off, run_inference returns exactly if for some number of states l at most max_iter, larger than extra_steps, the sum of all activations changed by less than stability_diff in each of the last extra_steps steps; the recorded trajectories are then the first l states of the recurrence (one fewer when l = max_iter) for the least such l; otherwise the buffer is left. A map whose slopes times loads are at most q <= 1 returns from every start in [-1,1] once concepts * 2 * q^n < stability_diff for some n with n + extra_steps + 1 <= max_iter. (With EXITED the number of recorded states must also differ from extra_steps + 1: a map at rest from the start raises.)", "quantifier": "every map built through the API whose concepts are active, without repeated relations and with well-formed function arguments; every max_iter, extra_steps, stability_diff", "why_tests_cant": "An exact condition over all maps and bounds; numba does not report leaving the buffer.", "anchors": ["py_fcm/utils/functions.py:vectorized_run", "py_fcm/fcm.py:__vectorized_inference", "py_fcm/fcm.py:run_inference"]}
{"id": "C95", "title": "A fitted map has the settings given to the estimator", "statement": "FcmEstimator(...) is constructed exactly if the names of the decision, excitation and activation function are known ones. Whatever fit, predict and score calls follow, also ones that raise, its map keeps the given max_it, extra_steps, stabilize, stability_diff, decision function and engine. After a fit that returned every concept is active and has the given excitation function and memory setting; the concepts of a discrete column have the given activation function with its arguments, those of a continuous column the function fuzzy.", "quantifier": "every argument of the constructor, every history of calls, every table with readable names", "why_tests_cant": "Settings pass through defaults of three classes and a shared map that fit empties and refills.", "anchors": ["py_fcm/fcm_estimator.py:FcmEstimator", "py_fcm/fcm_estimator.py:fit", "py_fcm/fcm.py:set_default_concept_properties", "py_fcm/fcm.py:add_concept"]}
{"id": "C96", "title": "Which values a row to be predicted may have", "statement": "After fit, init_concept_by_feature_data accepts a value exactly if its column occurred in the training data and the value is a number for a continuous column, or a text, an integer, a truth value or a float with an integer part for a discrete one; any other value raises 'Cannot init concept' and leaves the map as it is. A value of a discrete column that names no concept changes nothing. A number that is not negative sets each cluster of a continuous column to the membership interpolated between the neighbouring training values.", "quantifier": "every fitted estimator (also after predictions), every column and value, each discretization strategy", "why_tests_cant": "The accepted values depend on the training table; every exception is replaced by the same one.", "anchors": ["py_fcm/learning/association.py:init_concept_by_feature_data", "py_fcm/fcm.py:init_concept", "py_fcm/utils/functions.py:fuzzy_set"]}
{"id": "C97", "title": "When predict returns", "statement": "With vectorized_run=False, a decision function LAST or MEAN, an activation function with proper arguments, and continuous columns whose incoming weights do not sum up to 0, predict returns labels exactly if every value of every row can be used (C96); otherwise it raises 'Cannot init concept'.", "quantifier": "every fitted estimator (also after predictions that raised), all lists of rows", "why_tests_cant": "Totality over all rows, training tables and trajectories of the map.", "anchors": ["py_fcm/fcm_estimator.py:predict", "py_fcm/learning/association.py:get_inference_result", "py_fcm/learning/association.py:init_concept_by_feature_data"]}
{"id": "C98", "title": "load_dataset recodes text and small integer columns", "statement": "With factorize=True load_dataset replaces a column by codes if its first value is text, or an integer and the column has at most max_int_uniques different values or fewer different values than int_factor times the rows; every other column is kept as read. The code of a value is the number of different values that occur before it, -1 for a missing value. Different rows stay different, repeated rows are dropped. A csv file without rows cannot be recoded.", "quantifier": "every path ending in csv, all rectangular csv files with distinct names, every literal parser, all limits", "why_tests_cant": "The decision depends on the first value and on counts of the whole column; loading must not merge rows for any table.", "anchors": ["py_fcm/utils/__init__.py:load_dataset"]}
{"id": "C99", "title": "load_dataset reads arff files", "statement": "load_dataset decides by the extension of the path and loads every decoded arff file with distinct names and complete rows; the values are those of the file, text that reads as a literal replaced by the literal. Paths with another extension, unreadable files and incomplete rows raise 'Unknown dataset format'.", "quantifier": "every path and file, every result of the arff decoder", "why_tests_cant": "Ranges over all paths, decoded files and outcomes of literal_eval.", "anchors": ["py_fcm/utils/__init__.py:load_dataset"]}
{"id": "C100", "title": "build_fcm extends a given map", "statement": "build_fcm(dataset, fcm=m) learns beside the concepts of m exactly what it would learn into a map with the settings of m and no concepts, and raises exactly if that would raise. The concepts of m, their trajectories and the relations between them are unchanged, and no relation joins an old and a new concept; with stop_at_stabilize off an inference in debug mode gives the old concepts the trajectories and values they have without the learned part.", "quantifier": "every reachable map m, every table, configuration and set of targets, also when learning raises", "why_tests_cant": "Interference between learned and existing concepts depends on all names and on the whole construction loop.", "anchors": ["py_fcm/learning/association.py:build_fcm"]}
{"id": "C101", "title": "reset() makes a generator as good as new", "statement": "After any sequence of learning, use of the learned map and earlier resets that all returned, reset() returns; the generator then learns from every table exactly what a newly created one would. Maps returned earlier are left as they are.", "quantifier": "every life of a generator, every later table, target set and given map", "why_tests_cant": "Left-over features, processed columns or concepts show only in particular sequences of calls.", "anchors": ["py_fcm/learning/association.py:reset", "py_fcm/fcm.py:clear_all"]}
{"id": "C102", "title": "fit can be repeated", "statement": "Once fit has returned, and whatever predict and score did since, returned or raised, a further call of fit returns or raises the same exception exactly as it would on a new estimator with the same settings.", "quantifier": "every estimator, every sequence of fit, predict and score calls after which the last fit returned, every table of the new fit", "why_tests_cant": "A state from which fit raises is reached only by particular sequences of failing predictions.", "anchors": ["py_fcm/fcm_estimator.py:fit", "py_fcm/learning/association.py:reset", "py_fcm/fcm.py:clear_all", "py_fcm/fcm.py:reset_execution"]}
{"id": "C103", "title": "The order of the columns does not matter", "statement": "Learning from the same columns in another order, with the set of processed features iterated in any other order, gives a map with the same settings, concepts and relations (exact arithmetic, names that can be read back); estimators fitted on the two tables (vectorized_run=False) predict the same labels for every row and have the same score, and in real arithmetic one of them returns exactly when the other does.", "quantifier": "every table of readable columns, every permutation of the feature columns and of the target columns, every iteration order of the set, every configuration, every estimator and every sequence of calls before and after the two fits", "why_tests_cant": "Every pair of columns and every pair of concepts is handled in an order that depends on the table and on the hash seed of the process; tests run one order.", "anchors": ["py_fcm/learning/association.py:build_fcm", "py_fcm/learning/association.py:__def_two_feat_relation", "py_fcm/learning/utils.py:calc_concepts_coefficient", "py_fcm/fcm_estimator.py:fit", "py_fcm/fcm_estimator.py:predict", "py_fcm/fcm_estimator.py:score"]}
{"id": "C104", "title": "Every strategy clusters as documented and unknown strategies are refused", "statement": "With cmeans-gap a numeric column gets one cluster per change point of the fitted curve except the last, with the memberships fuzzy c-means finds from the distances to these points; with rl-cmeans it gets the components that are left and their memberships; with fewer than two clusters three are forced.  A strategy of any other name makes learning raise for every table with a numeric column of ten or more values, and does not matter for any other table.", "quantifier": "every column, every limit on clusters and iterations, every fitted curve, every strategy name, every table, generator and estimator", "why_tests_cant": "The strategies are chosen by strings at run time; tests use one or two columns and never a misspelt name together with a table that does not need it.", "anchors": ["py_fcm/learning/discretization/__init__.py:fuzzy_feature_discretization", "py_fcm/learning/discretization/clusters_estimation.py:estimate_clusters", "py_fcm/learning/association.py:build_fcm", "py_fcm/fcm_estimator.py:fit"]}
{"id": "C105", "title": "What the vectorised engine computes on every map", "statement": "With debug off, every map whose functions have well-formed arguments - also one with inactive concepts, repeated relations or fuzzy concepts whose relations do not sum to a positive number - follows the synchronous recurrence of the following map: all concepts influence their neighbours, inputs are divided only by positive sums, and of several relations between the same concepts in the same direction the last one counts. run_inference returns exactly if the sum of the activations of that recurrence changed by less than stability_diff in extra_steps consecutive steps within max_iter states, and the recorded trajectories are then its first states. Where all concepts are active, no divisor is 0 or negative and no relation is repeated, that map is the map itself. (With EXITED the number of recorded states must also differ from extra_steps + 1: a map at rest from the start raises.)", "quantifier": "every map built through the API with well-formed function arguments; every max_iter, extra_steps, stability_diff; over the reals every start in [-1,1]", "why_tests_cant": "An exact description over all maps, including the ones on which the two engines differ.", "anchors": ["py_fcm/utils/functions.py:vectorized_run", "py_fcm/fcm.py:__vectorized_inference", "py_fcm/fcm.py:run_inference"]}
{"id": "C106", "title": "When predict returns with the vectorised engine", "statement": "After fit with vectorized_run=True, predict returns for a table of rows exactly if every row uses only columns of the fitted table, with numbers in the numeric ones, and the synchronous recurrence of the learned map, started from the activations the row sets, changes the sum of the activations by less than stability_diff in extra_steps consecutive steps within max_iter states. The activations a row sets lie in [-1,1] and the recurrence stays there, so a stability_diff above twice the number of concepts is always met.", "quantifier": "every table with readable names, every activation function with well-formed arguments, every sequence of earlier calls; real arithmetic with the library's own discretization; decision function LAST or MEAN", "why_tests_cant": "An exact characterisation over all tables and rows; tests only sample rows that happen to converge.", "anchors": ["py_fcm/fcm_estimator.py:predict", "py_fcm/utils/functions.py:vectorized_run", "py_fcm/learning/association.py:init_concept_by_feature_data"]}
{"id": "C107", "title": "What a row to be predicted sets, and in which order its cells come", "statement": "predict gives the initial activation 1 to the concept of a categorical value, the interpolated membership to the clusters of a nonnegative number, and 0 to every other concept of the map. If the separator does not occur too early in the texts of the cells, permuting the cells of each row changes neither what predict returns or raises nor the map left behind, with either engine; without that condition the predicted label can change (a value of one column can address a cluster of another column).", "quantifier": "every fitted table with readable names, every row, every permutation of its cells, every sequence of earlier predict and score calls; the order for every carrier with ordered arithmetic, the activations in real arithmetic with the library's own discretization", "why_tests_cant": "All permutations of all rows and all tables; the tests predict rows in the column order of the table, and the failing case needs a value never seen in training.", "anchors": ["py_fcm/fcm_estimator.py:predict", "py_fcm/learning/association.py:init_concept_by_feature_data", "py_fcm/fcm.py:init_concept"]}
{"id": "C108", "title": "What fit and predict draw", "statement": "predict(plot=True) returns or raises exactly what predict does and leaves the same estimator; it writes one picture per row, each under the name fcm.png, with one curve per target concept. fit(plot=True) returns exactly if fit does and every numeric column gets at most ten clusters, which only the strategy rl-cmeans can exceed; it then leaves the same estimator and writes one picture per numeric column, named after the column, with one curve per cluster. Curves left on the figure by a fit that failed while drawing end up on the next picture.", "quantifier": "every estimator, table, row, directory and state of the figure; every discretization, and the library's own in real arithmetic", "why_tests_cant": "The exception needs more clusters than colours, and the leak needs a failed call before; the tests never plot.", "anchors": ["py_fcm/learning/discretization/__init__.py:fuzzy_feature_discretization", "py_fcm/fcm.py:plot_execution", "py_fcm/learning/association.py:get_inference_result", "py_fcm/fcm_estimator.py:fit", "py_fcm/fcm_estimator.py:predict"]}
{"id": "C109", "title": "With the vectorised engine too changes spread, keep their direction and are forgotten as the relations say", "statement": "With vectorized_run=True: an init_concept or add_relation affects only the concepts that can be reached from the changed one along relations; in a map whose relations all excite, a higher start never lowers an activation; in a map whose slopes times summed absolute weights (inactive concepts included) stay below q < 1, two starts differ by at most q^t times their initial distance after t steps, there is exactly one equilibrium and what is recorded approaches it, and the engine returns if the bound on the iterations leaves it enough steps.", "quantifier": "every pair of maps built through the API without exceptions, with well-formed function parameters, starting in [-1,1]; real arithmetic; every step both runs record; that the engine returns: decision function LAST or MEAN", "why_tests_cant": "The engine works on matrices prepared from the map, so locality and contraction have to be shown of the matrices; any test sees one map.", "anchors": ["py_fcm/fcm.py:__vectorized_inference", "py_fcm/utils/functions.py:vectorized_run", "py_fcm/fcm.py:run_inference", "py_fcm/fcm.py:init_concept", "py_fcm/fcm.py:add_relation"]}
{"id": "C110", "title": "Which calls are accepted", "statement": "Whether a call returns or raises is decided by its arguments and by a small part of the map, as follows. The constructor and set_map_decision_function: known names. add_concept: known excitation; a known function with numeric arguments, or none and numeric arguments of the default function; a dictionary, if given, holds a non-empty table when the type (the argument if valid, else the default type) is FUZZY or REGRESOR and only numbers otherwise; a FUZZY or REGRESOR concept that takes its type from the default needs the default's table. set_concept_properties: a known concept, known names, numeric arguments. set_default_concept_properties: excitation and type given and known, and a table for FUZZY. set_map_activation_function: a known name, and numbers if some concept uses the map's function. add_relation: nothing to fit, or a fittable slope. init_concept: a known concept unless its presence is not required, and a table if its function is the fuzzy one. reset_execution, clear_execution, clear_all and get_final_state always return; is_stable returns if no step was made or every concept has two recorded values. from_json: every required key present, known names, numbers as arguments, and no initial value for a concept with the fuzzy function.", "quantifier": "every map built through the API without exceptions (every map at all for the constructor, set_concept_properties, set_default_concept_properties and set_map_decision_function), every argument; table and membership of equal length where both are given; real arithmetic for add_relation and init_concept", "why_tests_cant": "The conditions combine argument, default concept, type and earlier calls; a test shows one accepted or rejected call, not that no other argument is accepted or that the rest of the map is irrelevant.", "anchors": ["py_fcm/fcm.py:add_concept", "py_fcm/fcm.py:set_concept_properties", "py_fcm/fcm.py:set_default_concept_properties", "py_fcm/fcm.py:set_map_decision_function", "py_fcm/fcm.py:set_map_activation_function", "py_fcm/fcm.py:add_relation", "py_fcm/fcm.py:init_concept", "py_fcm/fcm.py:is_stable", "py_fcm/fcm.py:get_final_state", "py_fcm/loader.py:from_json"]}
{"id": "C111", "title": "When the iterative engine returns", "statement": "With debug on, run_inference returns exactly if the synchronous recurrence, started in the initial activations, is defined for as many states as the stopping rule asks for, and the decision function is not EXITED or the number of states is not extra_steps + 1. It raises exactly if a state before the end has a concept whose activation function is not defined at its input, or EXITED is left without a value. Two maps with the same concepts, settings, initial activations and recurrence either both raise or both return, with the same trajectories and final values; so do maps that differ in the order of their add_relation calls.", "quantifier": "every map built through the API without exceptions, every arithmetic (order of relations: exact arithmetic), every number of concepts and steps", "why_tests_cant": "Whether a run raises depends on every state it passes through; a test shows one outcome, not that nothing but an undefined activation or an exhausted EXITED can end a run.", "anchors": ["py_fcm/fcm.py:run_inference", "py_fcm/fcm.py:__iterative_inference", "py_fcm/fcm.py:__keep_execution", "py_fcm/utils/functions.py:exited"]}
{"id": "C112", "title": "Replacing concepts by their opposites", "statement": "Replace some concepts of a map by their opposites: negate their initial activation (or take 1 - a for a PAPAGEORGIUS concept with sigmoid), and negate every relation with exactly one end among them. If the replaced concepts use sigmoid_hip, or sigmoid with PAPAGEORGIUS, the run of the new map is the run of the old one with the opposite values for these concepts and the same values for all others: the iterative engine returns whenever it did before, after the same number of steps, and the decided values are opposite as well. The vectorised engine records opposite values step by step, and if all concepts are replaced it also returns with the same number of steps.", "quantifier": "every map built through the API without exceptions, every set of replaced concepts, all real weights, all initial activations in [-1,1], every number of steps; sigmoid_hip without any bound on lambda is claimed and false", "why_tests_cant": "The symmetry holds of all pairs of runs and breaks only where sigmoid_hip cuts off its exponent, on one side and beyond 500; a test with ordinary weights never gets there, and a test of a single map has nothing to compare with.", "anchors": ["py_fcm/utils/functions.py:sigmoid_hip", "py_fcm/utils/functions.py:sigmoid", "py_fcm/utils/functions.py:papageorgius", "py_fcm/fcm.py:__iterative_inference", "py_fcm/fcm.py:__vectorized_inference"]}
{"id": "C113", "title": "The order of building calls", "statement": "Two calls that build a map are independent if they are about different concepts (add_concept, set_concept_properties, init_concept), are both relations, are a relation and a concept added that is not one of its ends, are a relation and the properties or initial value of any concept, or if one of them sets one of the settings (max_iter, stop at stabilize, stability difference, debug, decision function) and the other does not set the same one. Exchanging neighbouring independent calls, any number of times, changes nothing: each call still returns or raises what it did, the map holds the same concepts, relations and settings, and a run gives the same trajectories and final values (with the vectorised engine, if there are no parallel relations). A relation added before one of its ends is lost without an exception, and so does not commute with adding that concept.", "quantifier": "every map without an inclination to fit, every sequence of building calls of any length including calls that raise, every rearrangement; exact arithmetic, real numbers for the vectorised engine", "why_tests_cant": "There are factorially many orders of the same script; a test fixes one or a few. The engines gather contributions in the order of the relations and concepts, so that a dependence on the order hides in every one of their loops.", "anchors": ["py_fcm/fcm.py:add_concept", "py_fcm/fcm.py:add_relation", "py_fcm/fcm.py:init_concept", "py_fcm/fcm.py:set_concept_properties", "py_fcm/fcm.py:set_map_decision_function", "py_fcm/fcm.py:run_inference"]}
{"id": "C114", "title": "Inference in floating-point arithmetic", "statement": "However results are rounded, as long as rounding is monotone, odd and exact on small integers (doubles with rounding to nearest even are of this kind): every value either engine records, and every final value, is NaN or a number in [-1,1], whatever the weights (infinities and NaN included) and slopes. If the weights are numbers of at most a third of the exactly represented integers (2^53 for doubles), the functions are not fuzzy and the slopes are numbers other than 0, NaN does not occur, although sums may overflow. The iterative engine returns whatever the weights and values. With larger weights NaN does occur: two relations of weights 2^1023 and -2^1023 from the same PAPAGEORGIUS concept.", "quantifier": "every map, every format (rounding function, exponential function) satisfying the stated laws, in particular binary64, every run of both engines; that the iterative engine returns: decision function LAST or MEAN, function parameters other than 0", "why_tests_cant": "Rounding errors depend on all bits of all inputs and on the library's exponential function. A test observes a few of 2^64 values per variable, on one platform, and overflow needs values nobody writes into a test.", "anchors": ["py_fcm/utils/functions.py:sigmoid", "py_fcm/utils/functions.py:sigmoid_hip", "py_fcm/utils/functions.py:relm", "py_fcm/utils/functions.py:fuzzy_set", "py_fcm/utils/functions.py:vectorized_run", "py_fcm/fcm.py:run_inference", "py_fcm/fcm.py:get_concept_value"]}
{"id": "C115", "title": "Rounding errors stay small", "statement": "Run a map with saturation, sigmoid, sigmoid_hip or relm functions, weights of at most W and initial values in [-1,1] once in floating-point and once in real arithmetic. If every operation is accurate to a relative error ε (2^-53 for doubles), one step introduces an error of at most (14 + 18·Λ·W·K²)·ε, where K exceeds the number of relations into any concept and Λ bounds the slopes; after t steps every recorded value differs from the real one by at most 1 + q + … + q^(t-1) times that, where q bounds slope times total absolute weight. If q < 1 the error therefore never grows beyond a constant, also of the final value, and the floating-point run approaches the real equilibrium up to this constant. For functions that jump no such bound exists: an underflow switches a bistate concept.", "quantifier": "every map with such functions, every number of steps, every format and rounding satisfying the accuracy law, in particular binary64", "why_tests_cant": "The exact real trajectory cannot be computed by a test, and how errors accumulate over hundreds of steps depends on every rounding on the way.", "anchors": ["py_fcm/utils/functions.py:sigmoid", "py_fcm/utils/functions.py:sigmoid_hip", "py_fcm/utils/functions.py:relm", "py_fcm/utils/functions.py:saturation", "py_fcm/utils/functions.py:Excitation", "py_fcm/fcm.py:run_inference", "py_fcm/fcm.py:get_concept_value"]}
{"id": "C116", "title": "Fuzzy c-means in several dimensions", "statement": "cmeans clusters samples with any number of columns. Every iteration gives positive memberships that sum to 1 per sample; every centre is, in all coordinates at once, a mean of the samples with positive weights (so it lies within their convex hull); distances are Euclidean; the objective is the weighted sum of squared distances; a sample belongs to a nearer centre at least as much as to a farther one; memberships are 1 / Σ_k (d_i/d_k)^(2/(m-1)) unless a ratio of distances is below the machine epsilon. The run stops after the first round that moves the memberships by less than error, at the latest after maxiter-1 rounds, and returns that round's results, the objective of each round and a partition coefficient between 1/c and 1. The objective never increases from round to round as long as nothing is clamped. On a single column it is the one-dimensional algorithm of C46, C47, C62, C63, C80, C81 and C92.", "quantifier": "every data matrix, number of clusters, admissible start, exponent m > 1 (m ≠ 1 for the first parts), error and number of rounds", "why_tests_cant": "The input space is continuous and of any dimension; optimality of a step compares with all other memberships and centres.", "anchors": ["py_fcm/learning/discretization/fuzzy_cmeans.py:cmeans", "py_fcm/learning/discretization/fuzzy_cmeans.py:_cmeans0", "py_fcm/learning/discretization/fuzzy_cmeans.py:_fp_coeff", "py_fcm/learning/utils.py:one_dimension_distance", "py_fcm/learning/utils.py:normalize_power_columns"]}
{"id": "C117", "title": "Robust-learning fuzzy c-means in several dimensions", "statement": "RlFuzzyCmeans.fit on at least two samples with any number of columns never divides by zero nor takes a logarithm of zero. It starts with each sample as its own cluster; each round computes memberships as Gaussians of the Euclidean distance weighted with the proportions, updates the proportions, drops clusters of less than one sample and sets each centre to the weighted mean of the samples in every coordinate; it ends with one cluster or when the centres move less than error (Frobenius norm). After every round the proportions are positive and sum to 1, memberships are positive and sum to 1 per sample, and the centres are means of the samples with positive weights; more rounds never mean more clusters. On one sample it raises ZeroDivisionError. predict gives each element the first of the centres nearest in Euclidean distance. On a single column it is the algorithm of C48, C64, C65 and C93.", "quantifier": "every data matrix with at least two rows, every error and number of rounds; every centre matrix and list of elements", "why_tests_cant": "The number of rounds and clusters depends on the data; the absence of division by zero concerns all of them.", "anchors": ["py_fcm/learning/discretization/rl_fuzzy_cmeans.py:rl_fuzzy_cmeans", "py_fcm/learning/discretization/rl_fuzzy_cmeans.py:_compute_u", "py_fcm/learning/discretization/rl_fuzzy_cmeans.py:_update_v", "py_fcm/learning/discretization/rl_fuzzy_cmeans.py:_resize_references", "py_fcm/learning/discretization/rl_fuzzy_cmeans.py:RlFuzzyCmeans"]}
{"id": "C118", "title": "What a joined map is and how it runs", "statement": "Whenever join_maps returns for a non-empty sequence, the result can be built through the API without an exception and has the settings of the first map (iterations, extra steps, stopping, threshold, decision function, memory, activation function with arguments, weight). Each of its concepts comes from the first map that contains it: it is active, excited by Kosko's rule, uses the memory setting of the very first map, and is a decision concept exactly if it was one there. It keeps its activation function if that has another name than the function of its map, and otherwise gets the function of the very first map (so a concept of a later map can silently change its function). The union of maps without common concepts and repeated relations, all of whose concepts have these properties already, contains each map unchanged: as long as one of the maps runs alone, the joined map goes through the same values, and it runs at least as long; with a fixed number of steps it returns exactly if all maps do, with the same trajectories and final values. Joining a single map without repeated relations is exporting and importing it.", "quantifier": "every non-empty list of reachable maps, every strategy; for the runs: all lists of disjoint maps with names the separator cannot be confused with, on every carrier with (0+v)/1 = v (real numbers, rationals)", "why_tests_cant": "The claim relates the runs of arbitrarily many maps of any size with that of a map none of them knows.", "anchors": ["py_fcm/loader.py:join_maps", "py_fcm/loader.py:from_json", "py_fcm/fcm.py:FuzzyCognitiveMap.to_json", "py_fcm/fcm.py:FuzzyCognitiveMap.run_inference"]}
{"id": "C119", "title": "The text of to_json means the exported map", "statement": "Every JSON value with distinct keys is read back from its text exactly (json.loads after json.dumps), with any white space around it; the text is printable ASCII whatever the names contain (quotes, line breaks, letters of any alphabet, characters beyond the basic plane), and different values have different texts. Whatever text is read, writing and reading the result again changes nothing. Hence, for every map that to_json accepts, whose argument names are distinct and whose numbers can be spelt, json.loads of the text yields the exported dictionary and from_json of the text does what from_json of the dictionary does: for the maps whose export loses nothing it gives the map back. from_json depends only on the values under its eleven keys, not on the order of the entries nor on further entries. For an arbitrary text, from_json returns a map that can be built through the API or raises the exception 'Cannot load json data due: …'. join_maps, which passes every map and the result through a text, is the join of the documents.", "quantifier": "all JSON values, all texts, all documents, all maps; numbers: any spelling that reads back", "why_tests_cant": "A test tries some names and some documents; the claim is about every string of characters a name or a text can be.", "anchors": ["py_fcm/fcm.py:FuzzyCognitiveMap.to_json", "py_fcm/loader.py:from_json", "py_fcm/loader.py:join_maps"]}
{"id": "C120", "title": "Maps of two- and three-valued concepts end in a cycle", "statement": "If all concepts of a map have the function biestate or threestate, every run of the iterative engine, and every run recorded by the vectorised one, is periodic after its beginning: with K = 2^(number of two-valued concepts) * 3^(number of three-valued ones), there are a >= 1 and p >= 1 with a + p <= K + 1 such that from step a on the whole state repeats every p steps. If the stability difference is smaller than the distance of the values (any from 0 to less than 1/2), extra_steps is at least 3 and the iterative engine stops before the limit of iterations, the map is at rest: the last two states are equal and a further step changes nothing. With stop_at_stabilize the iterative engine needs at most K + extra_steps + 1 iterations, unless the state changes in every step up to the end of the run. The vectorised engine gives no such guarantee: it compares sums of activations and stops inside a cycle (two concepts that exchange their values).", "quantifier": "all maps built through the API whose concepts are all biestate or threestate, all weights, memory and excitation settings, all initial activations, all carriers (iterative engine) / the reals (vectorised engine)", "why_tests_cant": "A test follows one map; that every one of them becomes periodic within the number of states is a statement about all networks and all initial states.", "anchors": ["py_fcm/fcm.py:FuzzyCognitiveMap.run_inference", "py_fcm/utils/functions.py:bistate", "py_fcm/utils/functions.py:threestate"]}
{"id": "C121", "title": "Two-valued maps without inhibition compute reachability", "statement": "Let all concepts of a map be two-valued (biestate) with the excitation KOSKO, all weights non-negative and all initial activations non-negative. At every step t >= 1 every activation is 0 or 1, and a concept is positive at step t exactly if a walk of t steps leads to it from a concept that was positive at the beginning, where one step follows a relation of positive weight out of an active concept or, at a concept with memory influence, waits. If all concepts have memory, these are exactly the concepts reached by a path of at most t such relations. With initial activations 0 or 1, decision function LAST, a stability difference in [0,1), extra_steps >= 2 and max_iter at least the number of concepts plus 2, run_inference returns and the final value of every concept is 1 if it can be reached from a concept that started at 1, and 0 otherwise. The vectorised engine does the same (max_iter at least the number of concepts plus extra_steps plus 2, stability difference in (0,1]), except that there inactive concepts pass on their activation and of several relations between two concepts only the last one counts.", "quantifier": "all maps built through the API without an exception whose concepts are biestate with KOSKO and whose weights are not negative; all sizes, all graphs, all activity and memory settings, all initial activations; real arithmetic", "why_tests_cant": "A test checks one graph; reachability in every graph after every number of steps, and that the engine never stops too early, are statements about all of them.", "anchors": ["py_fcm/fcm.py:FuzzyCognitiveMap.run_inference", "py_fcm/utils/functions.py:bistate", "py_fcm/utils/functions.py:Excitation.kosko"]}
{"id": "C122", "title": "Going on without a reset", "statement": "run_inference(reset=False) with the iterative engine: it starts at the current values of the concepts (after a run: the final values), appends to every record the states of the recurrence that follow them, until extra_steps - 1 tests in a row found no reason to go on (the tests count the steps of this call only, but compare the ends of the whole records, so that the first one compares a new value with the last value recorded earlier), and decides the final values from the whole records. It takes at least extra_steps steps if max_iter > 1 and extra_steps >= 2, and at most max(1, max_iter) + extra_steps - 2. With LAST, after a run, the record up to the final state followed by what is appended is one run of the recurrence from the initial activations. After any number of such calls run_inference() reproduces the first run, record and final values. With the vectorised engine the records are not extended but replaced: the call returns or raises, and leaves the same map, as run_inference() on the map whose records are its current values; a later run_inference() repeats this call and not the first run.", "quantifier": "all maps built through the API without an exception, any earlier runs, changes and settings, any decision function, any arithmetic (what the vectorised engine records: exact arithmetic); any number of calls", "why_tests_cant": "A test runs a few sequences of calls; how records, counters and stored values left by every possible earlier call combine is only visible in a proof about all states.", "anchors": ["py_fcm/fcm.py:FuzzyCognitiveMap.run_inference", "py_fcm/fcm.py:FuzzyCognitiveMap.__iterative_inference", "py_fcm/fcm.py:FuzzyCognitiveMap.__vectorized_inference", "py_fcm/fcm.py:FuzzyCognitiveMap.is_stable"]}
{"id": "C123", "title": "Maps without feedback settle and forget their start", "statement": "Call a map free of feedback if no concept comes back to itself along relations that start at active concepts, and every concept is either without memory or an input: no active concept has a relation into it and its own update leaves its initial activation as it is. After run_inference with the iterative engine the value of a concept is the same at every recorded step from the step on that no chain of such relations ending at it is long enough to reach, at the latest from step n on for n concepts; it does not depend on the initial activations of concepts that are no inputs (so init_concept on one of them changes nothing from then on). There is at most one state that every update leaves as it is and that agrees with the inputs. With stop_at_stabilize and a stability difference that accepts a standstill (over the reals: one that is not negative) the run takes at most n + extra_steps + 1 iterations, whatever max_iter is. With LAST, extra_steps >= 2 and max_iter >= n + 2, and with stop_at_stabilize off or a stability difference that accepts no movement (over the reals: 0), the final values are that state, and init_concept on a concept that is no input does not change them. With the usual stability difference the run may end earlier, in another state, and a concept with memory that is no input may take longer. The vectorised engine records values that settle in the same way, where relations of inactive concepts count too.", "quantifier": "all maps built through the API without an exception that are free of feedback, any number of concepts, any weights, activation functions and settings, any arithmetic (vectorised engine: real numbers, with initial activations between -1 and 1)", "why_tests_cant": "A test runs a few small maps from a few starts; that every start is forgotten after as many steps as there are concepts, for every map without cycles, is a statement about all of them.", "anchors": ["py_fcm/fcm.py:FuzzyCognitiveMap.run_inference", "py_fcm/fcm.py:FuzzyCognitiveMap.__iterative_inference", "py_fcm/fcm.py:FuzzyCognitiveMap.__vectorized_inference", "py_fcm/fcm.py:FuzzyCognitiveMap.is_stable", "py_fcm/fcm.py:FuzzyCognitiveMap.init_concept"]}
{"id": "C124", "title": "Concepts that are alike can be merged", "statement": "Let every concept of a map belong to a group, and let a second map have one concept for each group, such that a concept and the one that stands for its group have the same activation function, memory flag, excitation function and fuzzy normaliser, the same initial activation, and for every group the weights of the relations into the concept from active members of the group add up to what the weights of the relations between the two standing concepts add up to; the two maps have the same settings. Then run_inference with the iterative engine returns for the first map exactly if it does for the second, and every concept has, record for record, the trajectory and the final value of the concept that stands for it, whatever the decision function. In particular, if a rearrangement of the concepts of a map leaves relations, settings and initial activations as they are, a concept and its image have the same trajectory and final value. The vectorised engine (for which inactive concepts count and the last of several parallel relations) records the same values at the steps that both maps record, but may stop at different steps, because it compares sums over all concepts.", "quantifier": "all pairs of maps built through the API without an exception that are related in this way, any number of concepts and groups; arithmetic in which addition is commutative and associative and multiplication distributes over it (real numbers, rational numbers); vectorised engine: real numbers with initial activations between -1 and 1", "why_tests_cant": "A test compares two concrete maps; that every grouping with equal sums of weights preserves whole runs, including the step at which they stop, needs a proof about all maps and all steps.", "anchors": ["py_fcm/fcm.py:FuzzyCognitiveMap.run_inference", "py_fcm/fcm.py:FuzzyCognitiveMap.__iterative_inference", "py_fcm/fcm.py:FuzzyCognitiveMap.__vectorized_inference", "py_fcm/fcm.py:FuzzyCognitiveMap.is_stable", "py_fcm/utils/functions.py:Excitation"]}
{"id": "C125", "title": "Mutual influence leads to rest or to swinging between two states", "statement": "Let all concepts of a map be two- or three-valued (biestate, threestate) and let influence be mutual: for any two concepts the weights of the relations from the first to the second add up to what the weights from the second to the first add up to (counting nothing for inactive concepts and twice for concepts rescaled to [-1,1]). Then, with either engine, from the step that is the number of states of the map on, every concept has the value it had two steps before: the map rests or swings between two states, each of which follows the other under the recurrence; longer cycles do not occur. If moreover every concept is held by its memory and its relations to itself at least as strongly as by all other concepts together, the map comes to rest, and with stop_at_stabilize and a stability_diff between 0 and 1/2 the iterative engine records at most as many states as there are plus extra_steps plus 1. A run of the iterative engine that is longer than this swings between two different states to its end. For one-way influence longer cycles occur, and without memory maps with mutual influence do swing.", "quantifier": "all maps of two- and three-valued concepts with mutual influence reachable through the API, any number of concepts, any real weights, memory flags, excitation functions and initial activations; real arithmetic; vectorised engine: initial activations between -1 and 1, parallel relations counted as that engine does", "why_tests_cant": "The claim is about the period of the orbit of every symmetric weight matrix from every start; it needs an energy that never increases, not a finite number of runs.", "anchors": ["py_fcm/fcm.py:FuzzyCognitiveMap.run_inference", "py_fcm/fcm.py:FuzzyCognitiveMap.__iterative_inference", "py_fcm/fcm.py:FuzzyCognitiveMap.__vectorized_inference", "py_fcm/utils/functions.py:bistate", "py_fcm/utils/functions.py:threestate", "py_fcm/utils/functions.py:Excitation"]}
{"id": "C126", "title": "With mutual influence and smooth functions a map settles or nears a rhythm of period two", "statement": "Let the function of every concept be saturation, or sigmoid, sigmoid_hip or relm with a lambda_val that makes it rise, no more than l times as steep as the identity; let influence be mutual (as in C125) and let the initial activations be between -1 and 1. Call T the sum over all concepts of the strengths with which all concepts act on it, by relations and by memory. Then, with either engine and however long the run, the squared differences between each activation and the one two steps before add up to at most 24 l T. If moreover every concept is held by itself at least as strongly as by all others together, the squared differences between consecutive activations add up to at most 12 l T; so at most 12 l T / e^2 steps move some concept by more than e. Then, with stop_at_stabilize, the iterative engine records at most 3 + (extra_steps - 1) (12 l T / stability_diff^2 + 1) states, whatever max_iter is; and the vectorised engine returns without an error if max_iter is at least 2 + j extra_steps for some j above 12 l T / stability_diff^2 times the number of concepts (decision function other than EXITED). No smallness of the weights is needed. Without the anchor smooth maps swing for ever, and with one-way influence they go round in longer circles.", "quantifier": "all maps with smooth rising functions and mutual influence reachable through the API, any number of concepts, any real weights, memory flags and excitation functions, all initial activations between -1 and 1, all lengths of runs; real arithmetic", "why_tests_cant": "The bounds hold for every run of every length of every symmetric map, with no bound on the weights, where contraction arguments fail; they need an energy that decreases by at least the squared change of each step.", "anchors": ["py_fcm/fcm.py:FuzzyCognitiveMap.run_inference", "py_fcm/fcm.py:FuzzyCognitiveMap.__iterative_inference", "py_fcm/fcm.py:FuzzyCognitiveMap.__vectorized_inference", "py_fcm/fcm.py:FuzzyCognitiveMap.is_stable", "py_fcm/utils/functions.py:sigmoid", "py_fcm/utils/functions.py:saturation", "py_fcm/utils/functions.py:Excitation"]}
{"id": "C127", "title": "Excitatory maps have a least and a greatest equilibrium, and runs that start one way settle", "statement": "Let all relations of a map excite (no weight is negative) and let all functions rise (biestate, threestate, saturation, sigmoid, sigmoid_hip and relm with a lambda_val that makes them rise, gceq with a weight of at least 0, lceq with one of at most 0). Then among the states that the recurrence leaves unchanged there is a least and a greatest one, concept by concept. A run that starts below an equilibrium stays below it, and one that starts above stays above. If the first step lowers no concept, no step lowers a concept; if it raises none, none does; the first is so from -1 everywhere, the second from 1 everywhere. A run from below all equilibria that comes to rest is in the least one. If a run starts one way from activations in [-1,1], all changes of all concepts add up to at most twice the number of concepts, so with stop_at_stabilize the iterative engine records at most 2 + (extra_steps - 1) (2 n / stability_diff + 1) states, whatever max_iter and however large the weights; and the vectorised engine returns if max_iter is at least 1 + j extra_steps for some j above 2 n / stability_diff (decision function other than EXITED). A run that starts neither way may swing for ever.", "quantifier": "all maps without inhibition whose functions rise, built without an exception, any number of concepts, any real weights, memory flags and excitation functions, both engines (the vectorised one with parallel relations counted as it does); real arithmetic", "why_tests_cant": "Existence of extremal equilibria and bounds for runs of every length are statements about all states of all maps; a test sees single runs.", "anchors": ["py_fcm/fcm.py:FuzzyCognitiveMap.run_inference", "py_fcm/fcm.py:FuzzyCognitiveMap.__iterative_inference", "py_fcm/fcm.py:FuzzyCognitiveMap.__vectorized_inference", "py_fcm/fcm.py:FuzzyCognitiveMap.is_stable", "py_fcm/utils/functions.py:Activation", "py_fcm/utils/functions.py:Excitation"]}
{"id": "C128", "title": "Measures that do not tell premise from conclusion teach mutual influence", "statement": "Call a measure of relations even if exchanging premise and conclusion does not change it. Support, lift, the odds ratio (odr) and the reduced odds ratio (rodr) are even; confidence, pos_inf, the bayesian measure and simple are not. If the measures for causality, for the weight and (where given) for the sign are even and double_relation is on, then in the map that AssociationBasedFCM builds from a table there is a relation from a to b of weight w if and only if there is one from b to a of weight w; for both inference engines the learned map is one of mutual influence in the sense of C125 and C126. So, from whatever activations, a learned map of two- and three-valued concepts comes, after at most as many steps as it has states, to rest or to swinging between two states; and if the concepts are smooth, the squared changes from each step to the next but one add up to a bound known beforehand. In particular, a table of categorical columns, learned with the default map and then initialised by any init_concept calls with values in [-1,1], yields a map whose run returns, and those squared changes add up to at most 24 times the total pull of the map (the absolute couplings of all concepts, memory included). With double_relation off an even causality measure teaches no relation between two input columns and none between two target columns, because the code takes the stronger direction and both are equally strong: relations between different columns then lead only from an input column to a target column.", "quantifier": "all tables whose columns can be read, all targets, all configurations with even measures, all orders in which Python iterates sets, any empty map to start with; any run of the learned map; real arithmetic for the statements about smooth concepts", "why_tests_cant": "Equality of both directions for all tables and boundedness for all runs of all learned maps go beyond the tables and runs a test can try.", "anchors": ["py_fcm/learning/association.py:AssociationBasedFCM.__def_two_feat_relation", "py_fcm/learning/association.py:AssociationBasedFCM.build_fcm", "py_fcm/utils/functions.py:Relation", "py_fcm/fcm.py:FuzzyCognitiveMap.run_inference"]}
{"id": "C129", "title": "What is learned about two columns depends on these two columns only", "statement": "Take two tables and let columns p and q of the first (which may be the same column) have the same cells as columns p' and q' of the second, the same role (target or not) and, if numeric, the same clusters. Then AssociationBasedFCM learns from the first table a relation of weight w from the concept 'v of p' to the concept 'u of q' if and only if it learns one of weight w from 'v of p'' to 'u of q'' from the second, whatever other columns the tables have, in whatever order the columns come, however they are called and in whatever order Python iterates sets. The concepts themselves agree in everything but their relations and the sum of their weights. So leaving columns out of a table leaves out the relations of their concepts and changes no other, and renaming columns renames concepts and changes no relation.", "quantifier": "all pairs of tables whose columns can be read, all targets, all configurations and measures, all columns shared by the tables, any start map without relations; every ordered arithmetic with commutative product", "why_tests_cant": "The statement compares the maps learned from all pairs of tables that share columns; a test can compare a few such pairs.", "anchors": ["py_fcm/learning/association.py:AssociationBasedFCM.build_fcm", "py_fcm/learning/association.py:AssociationBasedFCM.__def_two_feat_relation", "py_fcm/learning/association.py:AssociationBasedFCM.__def_inner_feat_relations", "py_fcm/learning/association.py:AssociationBasedFCM.__def_all_feat_relations", "py_fcm/learning/utils.py:gen_discrete_feature_matrix"]}
{"id": "C130", "title": "How the values of a categorical column are written does not matter for learning", "statement": "Let one table arise from another by writing the values of categorical columns in another way (as other texts, truth values or numbers) such that different values stay different and the columns stay categorical; columns may also be renamed, reordered, added or left out. Then a relation of weight w from the concept 'v of p' to the concept 'u of q' is learned from the one table if and only if a relation of weight w between the renamed concepts is learned from the other, and every concept of a recoded column is a renamed concept. In particular a text column with fewer than ten different values may be factorised first, as load_csv_dataset(factorize=True) and load_dataset do. With ten or more it may not: texts are always categories, but integer codes with ten or more different values are taken for a quantity and clustered.", "quantifier": "all pairs of tables whose columns can be read, all recodings, all targets, configurations and measures, all orders of columns and of sets; every ordered arithmetic with commutative product", "why_tests_cant": "It compares what is learned from all tables with what is learned from all their recodings.", "anchors": ["py_fcm/learning/association.py:AssociationBasedFCM.build_fcm", "py_fcm/learning/association.py:AssociationBasedFCM.__gen_discrete_concepts", "py_fcm/learning/association.py:AssociationBasedFCM.__def_two_feat_relation", "py_fcm/learning/utils.py:gen_discrete_feature_matrix", "py_fcm/__init__.py:load_csv_dataset"]}
{"id": "C131", "title": "With the default measures the relations between categorical columns are conditional frequencies", "statement": "Let a map be learned with the default measures (confidence, support, threshold 0, no sign function, both directions). A value u of a categorical column is related to a value v of another categorical column if and only if some row has both, and then the weight is the share of the rows with v among the rows with u. The weight is 1 if and only if every row with u has v. The relations from u to the values of the other column have positive weights that add up to 1. Relations come in pairs tied by Bayes' rule: the number of rows with u times the weight from u to v is the number of rows with v times the weight from v to u.", "quantifier": "all tables whose columns can be read, all targets, all orders of columns and of sets, all pairs of categorical columns of equal length and all their values; real arithmetic", "why_tests_cant": "It gives the weights of all maps learned from all tables in terms of the rows; a test compares a few weights of a few tables.", "anchors": ["py_fcm/learning/association.py:AssociationBasedFCM.__init__", "py_fcm/learning/association.py:AssociationBasedFCM.build_fcm", "py_fcm/learning/association.py:AssociationBasedFCM.__def_relation_weight", "py_fcm/learning/association.py:AssociationBasedFCM.__def_two_feat_relation", "py_fcm/utils/functions.py:Relation.conf", "py_fcm/utils/functions.py:Relation.supp"]}
{"id": "C132", "title": "Stricter learning options only leave relations out", "statement": "Let two maps be learned from the same table by configurations that differ only in causal_threshold, double_relation and features_relation. If the threshold of the second is not lower, and it asks for both directions or for relations among features only if the first does, then every relation of the second map is a relation of the first with the same weight. Precisely: a higher threshold leaves out the relations between categorical columns whose evaluation does not exceed it; features_relation=False leaves out the relations between two inputs or between two targets, except those inside a column; double_relation=False leaves, between an input and a target, exactly the relations towards the target. With the default measures and causal_threshold t >= 0 the relations between categorical columns are the association rules of the table with support above t: a relation from u to v is there if and only if the share of the rows with both exceeds t, and its weight is the share of v among the rows with u.", "quantifier": "all tables whose columns can be read, categorical or numeric, all targets, all configurations and measures, all orders of columns and of sets; every ordered arithmetic with commutative product", "why_tests_cant": "It compares all maps learned under all pairs of settings from all tables; a test learns a few maps.", "anchors": ["py_fcm/learning/association.py:AssociationBasedFCM.__init__", "py_fcm/learning/association.py:AssociationBasedFCM.build_fcm", "py_fcm/learning/association.py:AssociationBasedFCM.__def_relation_weight", "py_fcm/learning/association.py:AssociationBasedFCM.__def_two_feat_relation"]}
{"id": "C133", "title": "The exclusion weight concerns only the values of one column", "statement": "Let two maps be learned from the same table by configurations that differ only in exclusion_val. Between concepts of different columns both have the same relations with the same weights. Between two concepts of one column there is a relation if and only if exclusion_val is not 0, and its weight is exclusion_val. In particular exclusion_val=0 takes away exactly the relations inside the columns.", "quantifier": "all tables whose columns can be read, categorical or numeric, all targets, all configurations, measures and exclusion weights, all orders of columns and of sets; every ordered arithmetic with commutative product", "why_tests_cant": "It compares all maps learned with all exclusion weights from all tables; a test learns a few maps.", "anchors": ["py_fcm/learning/association.py:AssociationBasedFCM.__init__", "py_fcm/learning/association.py:AssociationBasedFCM.__def_inner_feat_relations", "py_fcm/learning/association.py:AssociationBasedFCM.build_fcm"]}
