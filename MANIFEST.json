{"claims":[
{"property": "C01", "status": "partial", "theorems": ["Bart.C01_splittable_partial", "Bart.C01_splittable_sound", "Bart.C01_missed_iff", "Bart.C01_refuted"], "note": "False of the code: the first row of a node is ignored. Proved: exact characterisation, soundness, exact set of missed columns, refutation."},
{"property": "C02", "status": "proved", "theorems": ["Bart.C02_caches_transparent"], "note": "All histories; splits as done by split_node need a NaN-free column and cut value."},
{"property": "C03", "status": "proved", "theorems": ["Bart.C03_summed_y", "Bart.C03_summed_y_nodes"], "note": ""},
{"property": "C04", "status": "proved", "theorems": ["Bart.C04_split_partitions"], "note": "For NaN-free features and cut values (see C05)."},
{"property": "C05", "status": "partial", "theorems": ["Bart.C05_refuted", "Bart.C05_nan_rows_partial"], "note": "False of the code with NaN: refuted; proved that NaN rows are the only ones duplicated."},
{"property": "C06", "status": "proved", "theorems": ["Bart.C06_random_splittable_value", "Bart.C06_some_draw_returns"], "note": ""},
{"property": "C07", "status": "proved", "theorems": ["Bart.C07_proportion"], "note": ""},
{"property": "C08", "status": "partial", "theorems": ["Bart.C08_reported_vs_actual_partial", "Bart.C08_refuted"], "note": "False of the code for every drawable value; exact relation proved from the distribution of the rejection loop."},
{"property": "C09", "status": "proved", "theorems": ["Bart.C09_normalised", "Bart.C09_constant_target"], "note": ""},
{"property": "C10", "status": "proved", "theorems": ["Bart.C10_unnormalise", "Bart.C10_child_has_no_range"], "note": ""},
{"property": "C100", "status": "proved", "theorems": ["Bart.C100_thresholds", "Bart.C100_proportions", "Bart.C100_null_selector"], "note": "The data handed to the plotting library. Local thresholds (global_thresholds always raises, C60). Which run the proportions come from is the subject of C56."},
{"property": "C101", "status": "proved", "theorems": ["Bart.C101_none", "Bart.C101_during", "Bart.C101_samples", "Bart.C101_in_sample"], "note": "For initializers that act by legal tree operations (InitializesBy), such as mapping any sklearn tree; the initializer that ships with the library always raises (C63)."},
{"property": "C102", "status": "partial", "theorems": ["Bart.C102_removable_partial", "Bart.C102_own_splits", "Bart.C102_refuted", "Bart.C102_forever", "Bart.C102_empty_leaf"], "note": "False of the code: a split at a value that is not in the data (sklearn cuts half way between two values) on a column where two rows agree has a prune with log ratio NaN, so it stays for ever, in every tree of every sample; a leaf without rows gets the value NaN. Proved over the reals for splits at a value of the data, if at least two leaves can be split: finite ratio, and removal for suitable p_grow / p_prune and draws. C102_refuted treats the root split."},
{"property": "C103", "status": "proved", "theorems": ["Bart.C103_fit", "Bart.C103_sweep"], "note": "The reference sampler (Spec/Reference.lean) shares with the model only the closed arithmetic expressions of the ratios and leaf values, numpy's choice and the streams of draws. It follows the code where the code departs from the published algorithm (columns judged without their first row, C01; a uniform number compared with the log ratio, C28; frequency of a cut value)."},
{"property": "C104", "status": "proved", "theorems": ["Bart.C104_columns", "Bart.C104_distribution"], "note": "Proved on the reference sampler and carried over by C103. The draws of np.random.choice are unbounded numbers u of which the entry number u mod length is taken; C104_distribution counts over all picks below N, for N a multiple of 1, ..., max(n, p), where this is exactly uniform."},
{"property": "C105", "status": "partial", "theorems": ["Bart.C105_rows_partial", "Bart.C105_distribution_partial", "Bart.C105_never", "Bart.C105_refuted"], "note": "False in general: a column is judged without the first row of a node (C01), so X = 1, 2, 2 can never be fitted (propose calls itself without end) while X = 2, 1, 2 can. Proved for data in which no column has the same value twice; then a column can be split if and only if the node has at least three rows, in every order."},
{"property": "C106", "status": "proved", "theorems": ["Bart.C106_never_returns", "Bart.C106_bounded", "Bart.C106_accepted"], "note": "The splits of a tree are described by Spec.treeSplits, the admitted steps by Spec.FixedStep. A consequence of comparing a uniform number with the log ratio (C28): a change is accepted only with positive log ratio, and the log ratios along a closed path add up to 0."},
{"property": "C107", "status": "proved", "theorems": ["Bart.C107_splits", "Bart.C107_size", "Bart.C107_values", "Bart.C107_fit"], "note": "For the default sampler without initializer (initializers can split elsewhere, C102)."},
{"property": "C108", "status": "partial", "theorems": ["Bart.C108_exactly_partial", "Bart.C108_needs", "Bart.C108_refuted", "Bart.C108_two_rows"], "note": "False of the code: a column is judged without its first row (C01), so the table 1, 2, 2 cannot be fitted by any draws (propose calls itself until Python's recursion limit), nor can any table with one or two rows. Proved: fit can return if and only if some column has two different values after the first row."},
{"property": "C109", "status": "proved", "theorems": ["Bart.C109_returns", "Bart.C109_average"], "note": "From C103; predictions for rows without NaN and -inf."},
{"property": "C11", "status": "proved", "theorems": ["Bart.C11_conjunction", "Bart.C11_order_irrelevant", "Bart.C11_incremental"], "note": "Splitting values must not be NaN."},
{"property": "C110", "status": "partial", "theorems": ["Bart.C110_total", "Bart.C110_grow", "Bart.C110_prune", "Bart.C110_transition_grow_partial", "Bart.C110_transition_prune_partial", "Bart.C110_too_large_partial", "Bart.C110_refuted"], "note": "The probabilities of proposals are proved in full; the last sentence is false of the code. The code's ratio uses the share of the cut value among all rows although the largest value is never drawn, forgets that the kind of move is certain when only one is possible, takes the number of removable splits plus 1 also when the parent stops being removable, and the number of splittable leaves minus 1 also when other numbers apply. Proved: the exact factor between the code's ratio and the true one, both ways. C110_refuted: first split of a new tree over 0, ..., 5, the factor is 5/6 p_grow. The picks of np.random.choice are uniform on 0, ..., N - 1 for N a multiple of all lengths in question, as in C104."},
{"property": "C111", "status": "partial", "theorems": ["Bart.C111_total", "Bart.C111_grow", "Bart.C111_prune", "Bart.C111_unchanged", "Bart.C111_refuted"], "note": "The probabilities of a step are proved; that the posterior is left unchanged is false of the code, because a uniform number is compared with the log ratio (C28). C111_unchanged: the distributions left unchanged are exactly those in which no tree with positive probability has a proposal with positive log ratio, and then steps do nothing. C111_refuted: for the rows 0, 1, 2, any target and parameters there are proposal probabilities for which no distribution that gives positive probability to the tree without splits is left unchanged; every posterior gives it positive probability. Random trees are weights with sum 1 on the tree objects; the distribution of the splits is compared."},
{"property": "C112", "status": "partial", "theorems": ["Bart.C112_nan", "Bart.C112_silent", "Bart.C112_numbers_partial", "Bart.C112_refuted"], "note": "The first half is false of the code: a constant target is divided by its range 0, a target with NaN or infinities is scaled to NaN, and numpy only warns. C112_silent: such a fit never raises an exception. C112_nan: no change of a tree is accepted, sigma and all predictions are NaN. C112_numbers_partial: for all other targets the predictions are numbers (the second half). In a separate model of fit with floats as targets, which C112_numbers_partial connects with the one used elsewhere."},
{"property": "C113", "status": "proved", "theorems": ["Bart.C113_sign", "Bart.C113_predictions", "Bart.C113_distribution"], "note": "From C103. Together with C78 (a > 0) this covers every change of unit. C113_distribution is over the reals, for independent standard normal draws and any other draws; predictions for rows without NaN and -inf."},
{"property": "C114", "status": "partial", "theorems": ["Bart.C114_predict_partial", "Bart.C114_written_partial", "Bart.C114_chain_partial", "Bart.C114_fit_partial", "Bart.C114_refuted", "Bart.C114_written_refuted"], "note": "False of the arrays that predict() of a single tree returns: that array is the tree's cache, the next sweep writes into it, and writing into it changes the later course of the sampler (both refuted on a concrete run). Proved for predict() of a model and the stored predictions. In a model of the arrays as memory locations (Model/Arrays.lean) over the trees of the reference sampler (C103)."},
{"property": "C115", "status": "partial", "theorems": ["Bart.C115_direction_partial", "Bart.C115_distribution_partial", "Bart.C115_refuted", "Bart.C115_ties"], "note": "False of the code, because a split at a training value puts this value itself on the left: between two training values the prediction is the one of the larger (C89), so rows that are not in the training data are predicted differently in the other direction (C115_refuted), and a cut is drawn with the frequency of the value to its left, so with repeated values the cuts have other probabilities (C115_ties). Proved for features without repeated values, for all predictions for the training data, sigma and acceptance: a one-to-one correspondence of the draws, which replaces picks by equally likely ones and rearranges the normal numbers, and equal distributions for normal numbers from any distribution with finitely many values. From C103."},
{"property": "C116", "status": "partial", "theorems": ["Bart.Rounding.C116_drift_partial", "Bart.Rounding.C116_exact", "Bart.Rounding.C116_default", "Bart.Rounding.C116_refuted"], "note": "False of floats: the running prediction is updated in place and never computed again, so the error can grow with every turn (C116_refuted: binary64 with ties to even, two trees, the error grows by one unit in the last place every two sweeps, up to 1/2). Proved for any arithmetic with relative error u: the error after m operations is at most ((1+u)^m - 1) times the number of trees times the largest prediction of a tree; with the default settings and binary64 less than 1e-8 of the largest prediction. No subnormal numbers, no overflow."},
{"property": "C117", "status": "proved", "theorems": ["Bart.C117_returns", "Bart.C117_zero_one", "Bart.C117_almost_surely", "Bart.C117_limit", "Bart.C117_limit_unreached", "Bart.C117_limit_possible", "Bart.C117_unfittable"], "note": "Probabilities are those of an infinite product (Measure.infinitePi) of uniform picks below N >= n and kinds of move; the number picked from k entries is taken modulo k, which C117_almost_surely allows for any distribution of picks that excludes none. The theorems with the limit are about the reference sampler (equal to the model by C103) with a counter of nested calls of propose (Model/Recursion.lean). C117_limit_possible: the limit is reached with a probability of at least (1 - p_grow)^R."},
{"property": "C118", "status": "proved", "theorems": ["Bart.Rounding.C118_range", "Bart.Rounding.C118_ends", "Bart.Rounding.C118_order", "Bart.Rounding.C118_back", "Bart.Rounding.C118_back_least", "Bart.Rounding.rounds64", "Bart.Rounding.C118_inexact", "Bart.Rounding.C118_ties"], "note": "For any rounding as described by Rounds; rounds64 shows that binary64 is one (overflow and subnormal numbers are not modelled). C118_inexact and C118_ties show that no more can be said: of targets from -2^53 to 1 the largest comes back as 0, and 0 and 2^-60 become equal."},
{"property": "C119", "status": "proved", "theorems": ["Bart.C119_more_chains"], "note": "Chains with independent draws; every draw comes from a finite set of outcomes, so that all histories of a chain that does return are among finitely many. The limit is the expected prediction of a single chain of the given length; nothing is said about its distance from the posterior mean, which more chains do not reduce. Uses C109 (average of chains), C103 (reference sampler), C117 (a chain ends with probability 1) and the strong law of large numbers of Mathlib."},
{"property": "C12", "status": "proved", "theorems": ["Bart.C12_in_sample_eq_out_of_sample"], "note": ""},
{"property": "C120", "status": "proved", "theorems": ["Bart.C120_trees", "Bart.C120_features", "Bart.C120_depths"], "note": "The reference implementation is the one of C103; C103 compares predictions, sigma and acceptance, C120 the nodes themselves (comparisons, depth, leaf values; a split is seen from the comparisons of the nodes below it, since the child links of stored decision nodes lead to live nodes, cf. C42-C44)."},
{"property": "C121", "status": "proved", "theorems": ["Bart.C121_shares"], "note": "Setting and method of C119. The shares are ratios of sums over chains, so that the limit is the ratio of the expectations and not the expectation of the ratio."},
{"property": "C122", "status": "partial", "theorems": ["Bart.C122_refuted", "Bart.C122_refuted_right", "Bart.C122_number_partial", "Bart.C122_exact_partial"], "note": "False of the code: C122_refuted (any parameters, any draws), with C122_refuted_right for the usual case: a leaf on the right of its last comparison that holds two rows with the same value of that column. C122_exact_partial: over the reals and for good parameters this is the only case."},
{"property": "C123", "status": "proved", "theorems": ["Bart.Oblivious.C123_in_sample", "Bart.Oblivious.C123_ok"], "note": "C49 for the oblivious sampler. Needs no assumption on the weights of the moves. The invariant is that of Proofs/ObliviousTree.lean: leaves cover all rows but may overlap; both predictions take the last leaf in the list."},
{"property": "C124", "status": "partial", "theorems": ["Bart.Oblivious.C124_some_leaf_partial", "Bart.Oblivious.C124_overlap_partial", "Bart.Oblivious.C124_training_row_partial", "Bart.Oblivious.C124_refuted"], "note": "False of the code (C124_refuted: a concrete fit with acceptance draws of 1/2; log, pow and sqrt by rational stand-ins, of which only the acceptance depends); existence and the leaf that decides are proved, that leaves with a common row contain the same rows and could not be split, and that every leaf has a training row."},
{"property": "C125", "status": "proved", "theorems": ["Bart.Oblivious.C125_complete"], "note": "For all sequences of accepted and rejected moves, including doubled leaves."},
{"property": "C126", "status": "proved", "theorems": ["Bart.Oblivious.C126_errors", "Bart.Oblivious.C126_valid", "Bart.Oblivious.C126_returns", "Bart.Oblivious.C126_required", "Bart.Oblivious.C126_constant"], "note": "Besides the listed exceptions the model has the errors outOfDraws (the list of draws given to the model is too short, nothing in the code) and nonFinite (the model stops where a leaf value or sigma would be inf or NaN, cf. C112 for what the code does then); C126_valid shows over the reals that the latter does not happen for valid settings and positive gamma draws. Exceptions while the model is built are those of C70."},
{"property": "C127", "status": "proved", "theorems": ["Bart.Oblivious.C127_fit"], "note": "The reference sampler (Spec/Layers.lean) is a list of growths per tree; it shares with the model only the closed arithmetic expressions of the ratios and leaf values, numpy's choice and the streams of draws. It follows the code where the code departs from what the name suggests (each leaf draws its own column and cut; leaves that cannot be split are doubled and a doubled leaf counts the value of the comparison above it; a uniform number is compared with the log ratio, C28). Tables without NaN and -inf."},
{"property": "C128", "status": "proved", "theorems": ["Bart.Oblivious.C128_units", "Bart.Oblivious.C128_chains"], "note": "C78 and C109 for the oblivious sampler; from C127, since the reference sampler sees the target only after scaling."},
{"property": "C129", "status": "partial", "theorems": ["Bart.Lengths.C129_raises_partial", "Bart.Lengths.C129_column_partial", "Bart.Lengths.C129_equal", "Bart.Lengths.C129_refuted"], "note": "False of the code with no trees or no sweeps (C129_refuted); proved for at least one tree, one chain and one sweep of the default sampler. outOfDraws is the error of the model if the given list of draws contains no grow move (the code would draw on). C129_equal checks the list model against the main one."},
{"property": "C13", "status": "partial", "theorems": ["Bart.C13_root_condition_partial", "Bart.C13_middle_partial", "Bart.C13_refuted", "Bart.C13_fit_refuted"], "note": "False of the code for NaN/-inf rows; exact condition proved. After every fit the prediction for such a row is the middle of the range of the target, whatever else is in the row (C13_middle_partial); a table with NaN can be fitted without an error, and predict() then differs from predict(X_train) (C13_fit_refuted)."},
{"property": "C130", "status": "partial", "theorems": ["Bart.Oblivious.C130_features", "Bart.Oblivious.C130_partial", "Bart.Oblivious.C130_depths", "Bart.Oblivious.C130_refuted"], "note": "False of the code as soon as a leaf has been doubled (C130_refuted: 22/25 instead of 10/25); C130_features gives the exact shares for all fits, C130_partial the property for samples without doubled leaves. The trees are those of the reference sampler of C127."},
{"property": "C131", "status": "proved", "theorems": ["Bart.Oblivious.C131_features", "Bart.Oblivious.C131_sign"], "note": "C79, C87 and C113 for the oblivious sampler, from C127: the reference sampler commutes with recoding and with the change of sign."},
{"property": "C132", "status": "proved", "theorems": ["Bart.Oblivious.C132_columns", "Bart.Oblivious.C132_distribution"], "note": "C104 for the oblivious sampler, from C127: the reference sampler with reordered data and translated picks is the reference sampler with relabelled comparisons."},
{"property": "C133", "status": "partial", "theorems": ["Bart.Oblivious.C133_rows_partial", "Bart.Oblivious.C133_distribution_partial", "Bart.Oblivious.C133_refuted"], "note": "False of the code for columns with repeated values (C133_refuted); proved if no column has the same value in two rows."},
{"property": "C134", "status": "proved", "theorems": ["Bart.Oblivious.C134_almost_surely", "Bart.Oblivious.C134_probability"], "note": "C117 for the oblivious sampler. Returning means that the model returns when the first L draws of every kind are ready, for some L (C134_almost_surely: for all large L)."},
{"property": "C135", "status": "proved", "theorems": ["Bart.Oblivious.C135_growth_kept", "Bart.Oblivious.C135_from_one_leaf", "Bart.Oblivious.C135_never_returns", "Bart.Oblivious.C135_accepted"], "note": "C106 for the oblivious sampler, and stronger: since all leaves are grown or pruned at once, the prune that undoes a growth has exactly the opposite log ratio, so that a growth is never taken back. The trees are those of Spec.ObliviousWork, the admitted steps those of Spec.ObliviousFixed; over the reals. exGrowing: runs to which the theorems apply and in which the tree grows in every step."},
{"property": "C136", "status": "partial", "theorems": ["Bart.Oblivious.C136_leaves_partial", "Bart.Oblivious.C136_unbounded"], "note": "False of the code: a leaf that cannot be split any more is doubled into two leaves with the same rows, and its part of the log ratio is finite (the share of a missing split value is taken as that of the last comparison), so with small sigma the first growth outweighs any number of doublings. C136_unbounded: three rows, one tree, any settings of the priors: sample i has a tree with 2^i leaves. C136_leaves_partial: at most 2^(n_burn + n_samples) leaves."},
{"property": "C137", "status": "partial", "theorems": ["Bart.Oblivious.C137_grow", "Bart.Oblivious.C137_only", "Bart.Oblivious.C137_prune", "Bart.Oblivious.C137_total", "Bart.Oblivious.C137_transition_partial", "Bart.Oblivious.C137_too_large_partial", "Bart.Oblivious.C137_refuted"], "note": "C110 for the oblivious sampler. The probabilities of proposals are proved in full, including doubled leaves; the last sentence is false of the code (C137_refuted, for all p_grow and p_prune). C137_transition_partial gives the factor between the true ratio and the one used when all leaves can be split: (p_grow / p_prune)^(k-1) for k leaves, because the code adds the ratio of the kinds of move once per leaf although it is drawn once per proposal, and the number of columns and the share of the largest value for each leaf, which the code leaves out. Probabilities are those of uniform picks below N and independent kinds of move, as in C110."},
{"property": "C138", "status": "partial", "theorems": ["Bart.Oblivious.C138_total", "Bart.Oblivious.C138_change", "Bart.Oblivious.C138_unchanged", "Bart.Oblivious.C138_refuted"], "note": "C111 for the oblivious sampler. The probabilities of a step are proved; that the posterior is left unchanged is false of the code, because a uniform number is compared with the log ratio (C28) and because the transition ratio is not that of the proposals (C137). C138_unchanged: the distributions left unchanged are exactly those under which no tree that has positive probability can change. Tables that can be split; with the others every step that draws grow raises AttributeError (C126)."},
{"property": "C139", "status": "proved", "theorems": ["Bart.Oblivious.C139_more_chains"], "note": "C119 for the oblivious sampler: independent chains, each draw from a finite set of outcomes in which every pick and kind of move is possible. The limit is the expected prediction of one chain; nothing is said about its distance from a posterior mean (see C138). Some column must have two values after the first row; otherwise C134 gives the probability that a fit returns at all. Uses C126, C127, C128 and the strong law of large numbers of Mathlib."},
{"property": "C14", "status": "proved", "theorems": ["Bart.C14_most_recent"], "note": ""},
{"property": "C140", "status": "proved", "theorems": ["Bart.Oblivious.C140_shares"], "note": "C121 for the oblivious sampler; setting of C139. What is counted for a column includes the doublings of leaves below a comparison with it (C130), so the limit is that of the numbers that the code counts, not of the splits alone."},
{"property": "C141", "status": "proved", "theorems": ["Bart.Oblivious.C141_forest", "Bart.Oblivious.C141_piecewise_constant", "Bart.Oblivious.C141_extrapolation"], "note": "C88 and C89 for the oblivious sampler. Although a doubled leaf puts a row into several leaves (C124), the sum over these leaves is again a decision tree on the columns, since every leaf of a tree is split or doubled at once. For rows without NaN and -inf. Uses C126 and C127."},
{"property": "C142", "status": "proved", "theorems": ["Bart.Oblivious.C142_selected", "Bart.Oblivious.C142_same_error"], "note": "C86 for whole fits with the oblivious sampler, for one chain: with several chains the samples of each chain are selected in this way (C128 gives the chains). Uses C127."},
{"property": "C143", "status": "partial", "theorems": ["Bart.C143_rate_partial", "Bart.C143_rate_below", "Bart.C143_default", "Bart.C143_refuted"], "note": "False of the code with the default: np.percentile takes percents (C60), so with 0.95 and up to 106 runs a column is selected with a probability of at least 1 - 2 / n_permutations times the probability of no ties. Proved: with the percentile in percents the bound holds. It holds for every target, also one that the column determines, since the share compared is that of the last permuted target (C56). Permutations and draws are finitely many outcomes with given probabilities, independent between runs; local thresholds."},
{"property": "C144", "status": "proved", "theorems": ["Bart.C144_copies", "Bart.C144_distribution", "Bart.C144_real", "Bart.C144_unequal"], "note": "For all number systems in which logarithms of positive whole numbers are finite (C144_real: real numbers). X without NaN, y not constant, at least one column, chain and sample, probabilities of the moves not 0, thin not 0; new data without NaN and -inf. C144_unequal: the number of copies must be the same for all columns."},
{"property": "C145", "status": "proved", "theorems": ["Bart.Oblivious.C145_copies", "Bart.Oblivious.C145_distribution", "Bart.Oblivious.C145_unequal"], "note": "For all number systems. X and new data without NaN and -inf, y not constant, at least one column, chain and sample, probabilities of the moves not 0, thin not 0. C145_unequal: the number of copies must be the same for all columns."},
{"property": "C146", "status": "proved", "theorems": ["Bart.C146_sum", "Bart.C146_alike", "Bart.C146_expected"], "note": "Setting of C144. C146_sum extends the correspondence of C144 by the shares; C146_alike holds for any two equal columns, also without the same number of copies of the others. C146_expected sums over all picks below N, for N a multiple of 1, ..., max(n, p), where the choices are exactly uniform; runs that end with an exception count as 0 on both sides."},
{"property": "C147", "status": "proved", "theorems": ["Bart.Oblivious.C147_sum", "Bart.Oblivious.C147_alike", "Bart.Oblivious.C147_expected"], "note": "C146 for the oblivious sampler, in the setting of C145. What feature_split_proportions counts includes the doublings of leaves below a comparison with the column (C130)."},
{"property": "C148", "status": "proved", "theorems": ["Bart.C148_columns", "Bart.C148_distribution", "Bart.C148_units", "Bart.C148_sign", "Bart.C148_sign_distribution", "Bart.Oblivious.C148_columns", "Bart.Oblivious.C148_distribution", "Bart.Oblivious.C148_units", "Bart.Oblivious.C148_sign", "Bart.Oblivious.C148_sign_distribution"], "note": "The correspondences between the draws are those of C104 / C132 (columns), the identity (units, a > 0) and the other sign of the normal draws (a < 0, as in C113 / C131). The order of the rows does matter (C105)."},
{"property": "C149", "status": "proved", "theorems": ["Bart.C149_constant", "Bart.C149_features", "Bart.Oblivious.C149_constant", "Bart.Oblivious.C149_features"], "note": "The same draws are used before and after the change. The statement for strictly decreasing functions of a column is not included (C115 changes the draws)."},
{"property": "C15", "status": "proved", "theorems": ["Bart.C15_well_formed"], "note": ""},
{"property": "C150", "status": "proved", "theorems": ["Bart.C150_direction", "Bart.C150_distribution"], "note": "Default sampler. The correspondence between the draws is that of C115: it exchanges results of random choices and rearranges the normal numbers; an exception of one fit corresponds to an exception of the other, not necessarily the same."},
{"property": "C151", "status": "proved", "theorems": ["Bart.C151_residual_bart", "Bart.C151_ols"], "note": "Exact arithmetic. The other estimator is given by what its fit and predict compute; that it follows the units is a hypothesis on it."},
{"property": "C152", "status": "proved", "theorems": ["Bart.C152_residual_bart", "Bart.C152_ols"], "note": "The other estimator is given by what its fit and predict compute; that it ignores the recoding is a hypothesis on it. NaN and infinities stay as they are."},
{"property": "C153", "status": "proved", "theorems": ["Bart.C153_rows", "Bart.C153_distribution", "Bart.Oblivious.C153_rows", "Bart.Oblivious.C153_distribution"], "note": "Both samplers. With repeated values it is false of the code, see C105_refuted and Oblivious.C133_refuted: the first row of a column is never compared."},
{"property": "C154", "status": "proved", "theorems": ["Bart.C154_residual_bart", "Bart.C154_distribution", "Bart.C154_ols", "Bart.C154_ols_distribution"], "note": "The other estimator is given by what its fit and predict compute; that it ignores the order is a hypothesis on it. Default tree sampler."},
{"property": "C155", "status": "partial", "theorems": ["Bart.C155_refuted", "Bart.C155_with_iterator_partial"], "note": "False of the code: global_thresholds calls DataFrame.iter_rows, which does not exist, and never returns. Proved for the same body with a DataFrame class that has this method."},
{"property": "C156", "status": "proved", "theorems": ["Bart.C156_selector", "Bart.C156_kept", "Bart.C156_proportion"], "note": "For the method local; global never returns, see C155. The percentile is read as np.percentile reads it, in percent."},
{"property": "C16", "status": "proved", "theorems": ["Bart.C16_leaves_partition_rows"], "note": "NaN-free training features."},
{"property": "C17", "status": "proved", "theorems": ["Bart.C17_leaves_partition_space"], "note": ""},
{"property": "C18", "status": "proved", "theorems": ["Bart.C18_depth"], "note": ""},
{"property": "C19", "status": "proved", "theorems": ["Bart.C19_node_lists"], "note": ""},
{"property": "C20", "status": "proved", "theorems": ["Bart.C20_prune_undoes_grow"], "note": ""},
{"property": "C21", "status": "proved", "theorems": ["Bart.C21_illegal_rejected"], "note": ""},
{"property": "C22", "status": "partial", "theorems": ["Bart.C22_in_sample_partial", "Bart.C22_refuted_stale", "Bart.C22_refuted_index_error"], "note": "False of the code: stale cache after set_value; IndexError of a first predict after a grow. Proved for all other histories."},
{"property": "C23", "status": "proved", "theorems": ["Bart.C23_out_of_sample", "Bart.C23_in_sample_eq_out_of_sample"], "note": "Rows without NaN/-inf; predict() as far as C22 holds."},
{"property": "C24", "status": "proved", "theorems": ["Bart.C24_no_empty_node", "Bart.C24_during_sweep"], "note": ""},
{"property": "C25", "status": "proved", "theorems": ["Bart.C25_update_reaches_nodes"], "note": ""},
{"property": "C26", "status": "proved", "theorems": ["Bart.C26_proposals_legal"], "note": ""},
{"property": "C27", "status": "partial", "theorems": ["Bart.C27_can_propose_partial", "Bart.C27_refuted_for", "Bart.C27_refuted"], "note": "False of the code for a single-leaf tree on constant (or constant after the first row) columns: proposing recurses without end. Proved for every other tree."},
{"property": "C28", "status": "partial", "theorems": ["Bart.C28_acceptance_partial", "Bart.C28_refuted"], "note": "False of the code: it accepts when uniform < log ratio. Exact acceptance probability proved, compared with Metropolis-Hastings."},
{"property": "C29", "status": "proved", "theorems": ["Bart.C29_likelihood_cancels"], "note": ""},
{"property": "C30", "status": "partial", "theorems": ["Bart.C30_likelihood_partial", "Bart.C30_refuted", "Bart.sigmaM_default"], "note": "False of the code: standard deviation used for variance in four places of log_grow_ratio. Exact error proved; it is 0 for sigma_m = 1."},
{"property": "C31", "status": "partial", "theorems": ["Bart.C31_transition_partial", "Bart.C31_refuted"], "note": "False of the code; exact value of the sum proved."},
{"property": "C32", "status": "partial", "theorems": ["Bart.C32_tree_prior_partial", "Bart.C32_refuted"], "note": "False of the code; exact value of the sum proved."},
{"property": "C33", "status": "partial", "theorems": ["Bart.C33_leave_partial", "Bart.C33_frozen", "Bart.C33_frozen_model", "Bart.C33_no_prune", "Bart.C33_refuted"], "note": "False of the code: trees without splittable leaf are never changed again. Proved exactly when a proposal can be accepted."},
{"property": "C34", "status": "proved", "theorems": ["Bart.C34_depth_prior"], "note": ""},
{"property": "C35", "status": "partial", "theorems": ["Bart.C35_leaf_posterior_partial", "Bart.C35_refuted"], "note": "Mean is the posterior mean; the variance of the draw is the posterior variance divided by the number of trees (right for one tree only)."},
{"property": "C36", "status": "proved", "theorems": ["Bart.C36_sigma_posterior", "Bart.C36_sigma_pos", "Bart.C36_estimator"], "note": "Law of the draw under the assumption that np.random.gamma(shape, scale) has the gamma law."},
{"property": "C37", "status": "proved", "theorems": ["Bart.C37_each_draw_once", "Bart.C37_new_sampler"], "note": ""},
{"property": "C38", "status": "proved", "theorems": ["Bart.C38_residual_targets_any_consumer", "Bart.C38_residual_targets"], "note": "NaN-free training features."},
{"property": "C39", "status": "proved", "theorems": ["Bart.C39_running_prediction", "Bart.C39_prediction_exists", "Bart.C39_after_step"], "note": ""},
{"property": "C40", "status": "proved", "theorems": ["Bart.C40_sweep_order", "Bart.C40_sweep_total", "Bart.C40_exactly_once", "Bart.C40_step_result"], "note": "The schedule is modelled as a generator with late-bound variables; its run equals the sweep used by the other theorems."},
{"property": "C41", "status": "partial", "theorems": ["Bart.C41_collected_partial", "Bart.C41_refuted", "Bart.C41_refuted_example"], "note": "False of the code for two or more trees (late binding of the loop variable): all collected tree steps act on the last tree."},
{"property": "C42", "status": "partial", "theorems": ["Bart.C42_initial_trees_partial", "Bart.C42_refuted"], "note": "False of the code: the nodes of the initial trees have no target at all (None). Proved: single leaves with value 0."},
{"property": "C43", "status": "partial", "theorems": ["Bart.C43_count_partial", "Bart.C43_unit_fraction_partial", "Bart.C43_irrational_partial", "Bart.C43_samples", "Bart.C43_refuted", "Bart.C43_float_partial", "Bart.C43_float_default", "Bart.C43_float_refuted"], "note": "False of the code: for thin = a/b in lowest terms ceil(n/b) samples are stored. Holds up to rounding up for thin = 1/b. With the rounding of binary64 (C43_float): if the float 1/thin is p/q in lowest terms, ceil(n/p) samples are stored; for the default 0.1 these are ceil(n/10), for 0.3, 0.6, 0.7, 0.75, 0.9 and 1/49 it is one sample."},
{"property": "C44", "status": "proved", "theorems": ["Bart.C44_samples"], "note": ""},
{"property": "C45", "status": "proved", "theorems": ["Bart.C45_acceptance", "Bart.C45_recorded"], "note": ""},
{"property": "C46", "status": "proved", "theorems": ["Bart.C46_frozen"], "note": "Attributes of the stored nodes; what is reached through child links is C69."},
{"property": "C47", "status": "partial", "theorems": ["Bart.C47_parameters_partial", "Bart.C47_refuted"], "note": "False of the code: alpha, beta, k are reset to the defaults. Number of trees and sigma are kept."},
{"property": "C48", "status": "proved", "theorems": ["Bart.C48_predict"], "note": ""},
{"property": "C49", "status": "proved", "theorems": ["Bart.C49_in_sample", "Bart.C49_ok"], "note": ""},
{"property": "C50", "status": "partial", "theorems": ["Bart.C50_residuals", "Bart.C50_training_target", "Bart.C50_rmse_partial", "Bart.C50_refuted"], "note": "Residuals proved; rmse is the root of the sum, not of the mean, of squared errors."},
{"property": "C51", "status": "proved", "theorems": ["Bart.C51_combine", "Bart.C51_fit", "Bart.C51_fit_chains"], "note": ""},
{"property": "C52", "status": "proved", "theorems": ["Bart.C52_predict", "Bart.C52_fit"], "note": ""},
{"property": "C53", "status": "partial", "theorems": ["Bart.C53_refuted"], "note": "False of the code."},
{"property": "C54", "status": "proved", "theorems": ["Bart.C54_groups", "Bart.C54_run_models"], "note": ""},
{"property": "C55", "status": "partial", "theorems": ["Bart.C55_from_extract_partial", "Bart.C55_shifted_partial", "Bart.C55_refuted"], "note": "False of the code."},
{"property": "C56", "status": "partial", "theorems": ["Bart.C56_swapped_partial", "Bart.C56_refuted"], "note": "False of the code: the fit to the real target ends up in the null distribution, and the proportions are those of the last permuted target. Proved exactly what is compared."},
{"property": "C57", "status": "proved", "theorems": ["Bart.C57_proportions", "Bart.C57_sum", "Bart.C57_fit"], "note": ""},
{"property": "C58", "status": "proved", "theorems": ["Bart.C58_is_kept", "Bart.C58_kept"], "note": ""},
{"property": "C59", "status": "partial", "theorems": ["Bart.C59_mask_partial", "Bart.C59_null_mask_partial", "Bart.C59_null_refuted", "Bart.C59_refuted"], "note": "False of the code: columns that no tree splits on are missing from the mask; always so with a constant column. Exact mask proved."},
{"property": "C60", "status": "partial", "theorems": ["Bart.C60_percentile_partial", "Bart.C60_local_partial", "Bart.C60_refuted", "Bart.C60_global_refuted"], "note": "False of the code: np.percentile takes percents, so 0.95 is the 0.95th percentile. Proved with the argument read as percents. global_thresholds always raises."},
{"property": "C61", "status": "partial", "theorems": ["Bart.C61_compared_partial", "Bart.C61_refuted_unfitted"], "note": "False of the code: predictions for training rows are compared with targets of test rows, and a model that was never fitted raises."},
{"property": "C62", "status": "partial", "theorems": ["Bart.C62_map_partial", "Bart.C62_refuted"], "note": "False of the code: an sklearn tree that is a single leaf does not get its value copied. Proved for trees with at least one split. The rounding of X to float32 inside sklearn is not modelled."},
{"property": "C63", "status": "partial", "theorems": ["Bart.C63_other_partial", "Bart.C63_refuted", "Bart.C63_fit"], "note": "False of the code: initialize_tree reads tree.nodes[0].data.X.data, which does not exist, so AttributeError for every dataset, in the constructor of the model and hence in fit; proved that the model is constructed without initializer or with the one of the base class."},
{"property": "C64", "status": "partial", "theorems": ["Bart.C64_residual_bart_partial", "Bart.C64_ols_partial", "Bart.C64_training_rows", "Bart.C64_refuted_predict", "Bart.C64_refuted_residuals"], "note": "Proved when the arguments are given. False of the code otherwise: predict() and, with stored predictions, fit_predict raise; residuals(X) without y subtracts the base prediction twice."},
{"property": "C65", "status": "partial", "theorems": ["Bart.C65_oblivious_partition_partial", "Bart.C65_refuted", "Bart.C65_refuted_witness"], "note": "False of the code: a leaf that cannot be split is replaced by a decision node with two leaves that both hold all its rows. Proved as long as only trees all of whose leaves can be split are grown."},
{"property": "C66", "status": "partial", "theorems": ["Bart.C66_rules_partial", "Bart.C66_refuted"], "note": "False of the code: each leaf draws its own variable and value; with one column the rules of two leaves always differ. Proved what the rules are."},
{"property": "C67", "status": "proved", "theorems": ["Bart.C67_no_exception", "Bart.C67_returns"], "note": ""},
{"property": "C68", "status": "partial", "theorems": ["Bart.C68_total_ratio_partial", "Bart.C68_refuted"], "note": "False of the code; exact value of the sum proved, it is never positive."},
{"property": "C69", "status": "partial", "theorems": ["Bart.C69_links_partial", "Bart.C69_refuted"], "note": "False of the code: child links of stored decision nodes lead to objects of the live tree, whose values change. Proved: class, depth, conditions found there never change."},
{"property": "C70", "status": "proved", "theorems": ["Bart.C70_no_exception", "Bart.C70_returns"], "note": ""},
{"property": "C71", "status": "proved", "theorems": ["Bart.C71_original_rmse"], "note": "rmse is the root of the sum of squares, see C50."},
{"property": "C72", "status": "proved", "theorems": ["Bart.C72_splits_separate", "Bart.constant_unused"], "note": ""},
{"property": "C73", "status": "proved", "theorems": ["Bart.C73_initialised"], "note": ""},
{"property": "C74", "status": "proved", "theorems": ["Bart.C74_oblivious_prune"], "note": "Starting from a tree reachable by the ordinary operations."},
{"property": "C75", "status": "partial", "theorems": ["Bart.C75_no_error_partial", "Bart.C75_refuted"], "note": "False of the code: AttributeError when the tree is a single leaf that cannot be split and a grow is proposed. All other cases proved."},
{"property": "C76", "status": "proved", "theorems": ["Bart.C76_oblivious_reject"], "note": ""},
{"property": "C77", "status": "partial", "theorems": ["Bart.C77_own_estimator_partial", "Bart.C77_refuted", "Bart.C77_refuted_shared"], "note": "False of the code: the clone is dropped and the given object itself is fitted. Proved: nothing else is changed, and without base_estimator each model has its own."},
{"property": "C78", "status": "proved", "theorems": ["Bart.C78_target_units", "Bart.C78_residuals"], "note": "Exact arithmetic."},
{"property": "C79", "status": "proved", "theorems": ["Bart.C79_feature_units"], "note": "NaN and infinities stay as they are; the functions act on the finite values."},
{"property": "C80", "status": "proved", "theorems": ["Bart.C80_refit"], "note": "The draws are inputs; cached draws left over in a sampler object from the first fit are part of them."},
{"property": "C81", "status": "partial", "theorems": ["Bart.C81_reported", "Bart.C81_effect_partial", "Bart.C81_set_params_partial", "Bart.C81_other_settings_partial", "Bart.C81_refuted"], "note": "False of the code: a tree_sampler assigned by set_params is ignored, since the schedule is built in __init__. Proved for all other settings but initializer (see C101 for it), at any time of the life of the estimator."},
{"property": "C82", "status": "partial", "theorems": ["Bart.C82_clone_partial", "Bart.C82_refuted"], "note": "False of the code: clones of ResidualBART and OLS have the default settings. Proved for SklearnModel when no tree_sampler was assigned by set_params."},
{"property": "C83", "status": "partial", "theorems": ["Bart.C83_refuted", "Bart.C83_own_model_partial"], "note": "False of the code: cloning raises RuntimeError or AttributeError. Proved that SelectSplitProportionThreshold works on its own copy of the model."},
{"property": "C84", "status": "partial", "theorems": ["Bart.C84_seed_partial", "Bart.C84_fresh_partial", "Bart.C84_direct_partial", "Bart.C84_refuted"], "note": "False of the code: draws left over in the sampler objects from before the seeding are used first. Proved when nothing is left over."},
{"property": "C85", "status": "partial", "theorems": ["Bart.C85_own_draws_partial", "Bart.C85_refuted"], "note": "False of the code: all chains start with the draws left over in the sampler objects. Proved when nothing is left over."},
{"property": "C86", "status": "proved", "theorems": ["Bart.C86_samples", "Bart.C86_outcome", "Bart.C86_fit", "Bart.C86_fit_selected", "Bart.C86_fit_same_error"], "note": "The draws are inputs; X has no NaN; move probabilities of the sampler not 0."},
{"property": "C87", "status": "proved", "theorems": ["Bart.C87_constant_columns", "Bart.C87_nan_refuted"], "note": "At least one other column; the constant is not NaN. A draw from a list of columns is an index into it, as in numpy. C87_nan_refuted shows that the restriction on the data to predict is needed."},
{"property": "C88", "status": "proved", "theorems": ["Bart.C88_forest"], "note": "At least one sample; X has no NaN; move probabilities of the sampler not 0."},
{"property": "C89", "status": "proved", "theorems": ["Bart.C89_piecewise_constant", "Bart.C89_extrapolation"], "note": "As C88."},
{"property": "C90", "status": "partial", "theorems": ["Bart.C90_shown_partial", "Bart.C90_refuted"], "note": "False of the code: the values are on the normalised scale, so that the curve is the same in whatever units the target is. Proved that the values times the range of the target are right."},
{"property": "C91", "status": "partial", "theorems": ["Bart.C91_shown_partial", "Bart.C91_no_trees", "Bart.C91_refuted"], "note": "False of the code for minimum and mean, which are over all nodes, so that the minimum is always 0. Proved for the maximum, and what the other two curves are."},
{"property": "C92", "status": "proved", "theorems": ["Bart.C92_residual_plots", "Bart.C92_acceptance_plot"], "note": "The data handed to the plotting library."},
{"property": "C93", "status": "partial", "theorems": ["Bart.C93_refuted", "Bart.C93_with_attribute_partial", "Bart.C93_unfitted_partial"], "note": "False of the code: both raise AttributeError for every model, because the class Data has no attribute unnormalized_y. Proved: if it had this attribute, the plots would show what they should."},
{"property": "C94", "status": "proved", "theorems": ["Bart.C94_unnormalized_residuals"], "note": "Exact arithmetic."},
{"property": "C95", "status": "partial", "theorems": ["Bart.C95_too_few", "Bart.C95_too_many_partial", "Bart.C95_refuted"], "note": "False of the code: additional columns are ignored. Proved that too few columns raise IndexError."},
{"property": "C96", "status": "partial", "theorems": ["Bart.C96_values_partial", "Bart.C96_importance_refuted", "Bart.C96_labels_refuted"], "note": "False of the code: the importance functions fail for every DataFrame, and labels are ignored. For fit it holds by the way DataFrames are modelled (type(X) == DataFrame, then X.values), for predict it is proved equal to predict for arrays. Subclasses of DataFrame and labels that are numbers are not modelled."},
{"property": "C97", "status": "partial", "theorems": ["Bart.C97_refuted", "Bart.C97_returned_partial"], "note": "False of the code: never returns for an untrained model. Proved for what is returned otherwise; see C61 and C71 for the values."},
{"property": "C98", "status": "proved", "theorems": ["Bart.C98_fit_predict"], "note": ""},
{"property": "C99", "status": "proved", "theorems": ["Bart.C99_settings", "Bart.C99_in_use"], "note": "k is not a setting of the estimator, it is always 2."}
]}
