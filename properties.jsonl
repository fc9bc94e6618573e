{"id": "C01", "title": "Splittable columns are exactly the non-constant ones", "statement": "splittable_variables() of the data held by a node lists exactly the columns that take more than one distinct value among the rows of that node.", "quantifier": "every covariate matrix without NaN, every set of rows, every number of columns", "why_tests_cant": "Tests use one small table; whether a column is reported depends on where in the column the distinct values sit.", "anchors": ["bartpy/data.py:is_not_constant", "bartpy/data.py:CovariateMatrix.splittable_variables"]}
{"id": "C02", "title": "Cached data queries are indistinguishable from recomputation", "statement": "For a Data object and everything derived from it by adding split conditions, splittable_variables, n_splittable_variables, is_at_least_one_splittable_variable, is_column_unique, max_value_of_column, get_column, proportion_of_value_in_variable and summed_y return what a cache-free computation on the current X, y and mask would return.", "quantifier": "every matrix, every interleaving of queries, target updates and splits, so every combination of filled and inherited cache entries", "why_tests_cant": "The number of cache states grows with the history; a stale or wrongly inherited entry only shows after a particular sequence of calls.", "anchors": ["bartpy/data.py:CovariateMatrix", "bartpy/data.py:Target", "bartpy/data.py:Data.__add__"]}
{"id": "C03", "title": "summed_y is the sum of the current target over the node's rows", "statement": "After any history of update_y, summed_y and splitting with carried sums, summed_y() equals the sum of the current target values over exactly the rows in the node.", "quantifier": "every target, mask and history of updates and splits", "why_tests_cant": "The carried sum of the right child is never recomputed, so an error needs a specific split/update history to show.", "anchors": ["bartpy/data.py:Target.summed_y", "bartpy/data.py:Target.update_y", "bartpy/node.py:split_node"]}
{"id": "C04", "title": "A split sends every row of the parent to exactly one child", "statement": "split_node with a (<= v, > v) pair gives children whose row sets are disjoint and together are the parent's rows, left being the rows with value <= v; their n_obsv and summed_y are the true counts and sums and add up to the parent's.", "quantifier": "every matrix without NaN, every column, every cut value, every parent row set and target", "why_tests_cant": "Counts and sums of the right child are obtained by subtraction, for all data this needs an argument about complements.", "anchors": ["bartpy/node.py:split_node", "bartpy/data.py:CovariateMatrix.update_mask", "bartpy/data.py:Data.__add__"]}
{"id": "C05", "title": "Missing values do not break the split partition", "statement": "The same partition property when a feature value is NaN: every row ends in exactly one child and the reported n_obsv equals the number of rows in the child.", "quantifier": "every matrix, NaN included", "why_tests_cant": "Tests never contain NaN; IEEE comparison makes both masks false.", "anchors": ["bartpy/data.py:CovariateMatrix.update_mask", "bartpy/node.py:split_node"]}
{"id": "C06", "title": "Sampled split values never give an empty child", "statement": "random_splittable_value(v) raises NoSplittableVariableException exactly when v is not splittable; otherwise any value it returns occurs in the column among the node's rows, is not the maximum, and splitting on it leaves at least one row on each side; and some draw makes it return.", "quantifier": "every matrix without NaN, every row set, every sequence of random draws", "why_tests_cant": "The random draw sequence is unbounded (rejection loop).", "anchors": ["bartpy/data.py:CovariateMatrix.random_splittable_value", "bartpy/samplers/unconstrainedtree/proposer.py:sample_split_condition"]}
{"id": "C07", "title": "proportion_of_value_in_variable is the relative frequency of the value", "statement": "For a value that occurs in the column, proportion_of_value_in_variable returns (rows of the node with this value)/(rows of the node), through both the unique-column shortcut and the general branch.", "quantifier": "every matrix without NaN, every row set, column, occurring value and cache state", "why_tests_cant": "The shortcut is taken depending on cached/inherited uniqueness.", "anchors": ["bartpy/data.py:CovariateMatrix.proportion_of_value_in_variable", "bartpy/data.py:CovariateMatrix.is_column_unique"]}
{"id": "C08", "title": "The reported split-value probability is the probability of sampling it", "statement": "The probability used in the acceptance ratio for a split value equals the probability with which random_splittable_value draws this value.", "quantifier": "every column and every value it can draw", "why_tests_cant": "A statement about a distribution, sampling only estimates it.", "anchors": ["bartpy/data.py:CovariateMatrix.random_splittable_value", "bartpy/samplers/unconstrainedtree/likihoodratio.py:log_probability_split_within_node"]}
{"id": "C09", "title": "Normalised targets lie in [-0.5, 0.5], attain both ends and keep their order", "statement": "With normalize=True the stored target lies in [-0.5, 0.5], its minimum is -0.5, its maximum is 0.5, and it orders the rows like the original target.", "quantifier": "every target with at least two distinct values", "why_tests_cant": "Must hold for every target vector and length.", "anchors": ["bartpy/data.py:Target.normalize_y", "bartpy/data.py:Target.__init__"]}
{"id": "C10", "title": "unnormalize_y inverts normalisation", "statement": "unnormalized_y returns the original target, and unnormalize_y is the affine map that sends -0.5 to the minimum and 0.5 to the maximum.", "quantifier": "every target with at least two distinct values, every prediction vector", "why_tests_cant": "Round trip over all vectors.", "anchors": ["bartpy/data.py:Target.unnormalize_y", "bartpy/data.py:Target.unnormalized_y", "bartpy/data.py:Target.normalizing_scale"]}
{"id": "C11", "title": "A combined condition is the conjunction of its split conditions", "statement": "CombinedCondition.condition(X) is true for a row exactly when the row satisfies every split condition that was added, whatever their order and multiplicity.", "quantifier": "every list of conditions over any number of variables, every row without NaN or -inf", "why_tests_cant": "Bounds are merged per variable; order-independence ranges over all permutations.", "anchors": ["bartpy/splitcondition.py:CombinedCondition", "bartpy/splitcondition.py:CombinedVariableCondition.add_condition"]}
{"id": "C12", "title": "In-sample and out-of-sample membership agree", "statement": "For every split built from a root by adding conditions, condition() (training rows) equals condition(X_train).", "quantifier": "every matrix without NaN or -inf and every list of conditions", "why_tests_cant": "Two separate implementations (mask updates and interval bounds) must agree on all histories.", "anchors": ["bartpy/split.py:Split.condition", "bartpy/data.py:CovariateMatrix.update_mask", "bartpy/splitcondition.py:CombinedCondition.condition"]}
{"id": "C13", "title": "Rows with -inf or NaN are predicted like other rows", "statement": "Out-of-sample membership treats rows containing -inf or NaN consistently with the training rows: the root condition accepts every row.", "quantifier": "every row of extended floats", "why_tests_cant": "Boundary of IEEE comparisons never hit by tests.", "anchors": ["bartpy/splitcondition.py:CombinedCondition.condition", "bartpy/split.py:Split.condition"]}
{"id": "C14", "title": "most_recent_split_condition is the last condition added", "statement": "most_recent_split_condition() is None for a root split and otherwise the condition added last; splitting_variable of the stored condition is its variable.", "quantifier": "every sequence of additions", "why_tests_cant": "Ranges over all histories.", "anchors": ["bartpy/splitcondition.py:CombinedCondition.most_recent_split_condition", "bartpy/split.py:Split.most_recent_split_condition"]}
{"id": "C15", "title": "Every reachable tree is a well-formed binary tree", "statement": "After any sequence of grow and prune mutations, target updates, leaf value changes and predictions starting from a single root leaf, tree.nodes lists exactly the nodes reachable from one root through child links, each once; every decision node has two children and every leaf none; there is one more leaf than decision nodes.", "quantifier": "every history of tree operations of any length", "why_tests_cant": "Structural corruption needs a particular sequence of mutations; histories are unbounded.", "anchors": ["bartpy/tree.py:mutate", "bartpy/tree.py:Tree", "bartpy/node.py:split_node"]}
{"id": "C16", "title": "Leaves partition the training rows", "statement": "In every reachable tree each training row lies in exactly one leaf.", "quantifier": "every history, every NaN-free matrix", "why_tests_cant": "Unbounded histories and sizes.", "anchors": ["bartpy/tree.py:Tree.leaf_nodes", "bartpy/tree.py:mutate", "bartpy/node.py:split_node"]}
{"id": "C17", "title": "Leaves partition feature space", "statement": "In every reachable tree each new covariate row (without NaN/-inf) satisfies the out-of-sample condition of exactly one leaf.", "quantifier": "every history, every new row", "why_tests_cant": "Quantifies over all of feature space.", "anchors": ["bartpy/split.py:Split.out_of_sample_condition", "bartpy/tree.py:Tree._out_of_sample_predict"]}
{"id": "C18", "title": "Node depth is the distance from the root", "statement": "In every reachable tree a node's depth is its number of ancestors; both children of a decision node have the same depth.", "quantifier": "every history", "why_tests_cant": "Unbounded histories.", "anchors": ["bartpy/node.py:split_node", "bartpy/samplers/unconstrainedtree/proposer.py:uniformly_sample_prune_mutation"]}
{"id": "C19", "title": "Node lists are consistent and a non-trivial tree can always be pruned", "statement": "leaf_nodes and decision_nodes split nodes; prunable_decision_nodes are the decision nodes whose children are both leaves; every reachable tree with a decision node has at least one prunable decision node.", "quantifier": "every reachable tree", "why_tests_cant": "Existence of a prunable node is an inductive fact.", "anchors": ["bartpy/tree.py:Tree.prunable_decision_nodes", "bartpy/node.py:DecisionNode.is_prunable"]}
{"id": "C20", "title": "Pruning undoes growing", "statement": "Growing a leaf and then pruning the new decision node gives back a tree of the same shape, with the same row sets, depths and predictions conditions; only the value of the restored leaf is reset to 0.", "quantifier": "every reachable tree, every leaf, every split", "why_tests_cant": "Over all trees and leaves.", "anchors": ["bartpy/tree.py:mutate", "bartpy/samplers/unconstrainedtree/proposer.py:uniformly_sample_prune_mutation"]}
{"id": "C21", "title": "Illegal mutations are rejected", "statement": "PruneMutation on anything but a decision node with two leaf children and GrowMutation on anything but a leaf raise TypeError, for legal ones the constructor succeeds; mutate on a node that is not in the tree raises ValueError.", "quantifier": "every tree and node", "why_tests_cant": "Over all node configurations.", "anchors": ["bartpy/mutation.py:PruneMutation", "bartpy/mutation.py:GrowMutation", "bartpy/tree.py:Tree.remove_node"]}
{"id": "C22", "title": "In-sample tree predictions reflect the current leaves", "statement": "tree.predict() returns for each training row the current value of the leaf that contains it, whatever happened to the tree before.", "quantifier": "every history of mutations, target updates, leaf value changes and earlier predictions", "why_tests_cant": "Cache staleness depends on the call order.", "anchors": ["bartpy/tree.py:Tree.predict", "bartpy/node.py:LeafNode.set_value"]}
{"id": "C23", "title": "Out-of-sample predictions are those of the decision tree", "statement": "tree.predict(X) returns for each row the value of the leaf reached by following the <=/> rules from the root, and tree.predict(X_train) equals tree.predict().", "quantifier": "every reachable tree, every X without NaN/-inf", "why_tests_cant": "All trees and all rows.", "anchors": ["bartpy/tree.py:Tree._out_of_sample_predict", "bartpy/tree.py:Tree.predict"]}
{"id": "C24", "title": "No node is ever empty", "statement": "In every tree produced by the default sampler each node contains at least one training row, so leaf statistics never divide by zero.", "quantifier": "every dataset without NaN and at least one row, every sequence of random draws and accept decisions", "why_tests_cant": "All histories.", "anchors": ["bartpy/samplers/unconstrainedtree/proposer.py:sample_split_condition", "bartpy/samplers/leafnode.py:LeafNodeSampler.sample"]}
{"id": "C25", "title": "Update of the target reaches every node", "statement": "After tree.update_y(y) every node of the tree reports y as its target and the sum of y over its rows.", "quantifier": "every reachable tree and target", "why_tests_cant": "All trees.", "anchors": ["bartpy/tree.py:Tree.update_y", "bartpy/node.py:TreeNode.update_y"]}
{"id": "C26", "title": "Proposals are legal and do not change the tree", "statement": "propose(tree) returns a grow of a splittable leaf into two non-empty leaves or a prune of a prunable decision node, never raises TypeError, and leaves nodes, leaf values, row sets and predictions of the tree as they were.", "quantifier": "every reachable tree and every sequence of draws", "why_tests_cant": "All trees and draws.", "anchors": ["bartpy/samplers/unconstrainedtree/proposer.py:UniformMutationProposer.propose", "bartpy/samplers/unconstrainedtree/proposer.py:uniformly_sample_grow_mutation", "bartpy/samplers/unconstrainedtree/proposer.py:uniformly_sample_prune_mutation"]}
{"id": "C27", "title": "Proposing always succeeds", "statement": "propose(tree) returns a mutation (with a suitable continuation of the random draws) for every reachable tree.", "quantifier": "every reachable tree and dataset", "why_tests_cant": "Depends on the dataset; non-termination cannot be tested.", "anchors": ["bartpy/samplers/unconstrainedtree/proposer.py:UniformMutationProposer.propose"]}
{"id": "C28", "title": "The Metropolis-Hastings acceptance rule is applied", "statement": "A proposal with ratio r (log ratio l) is accepted with probability min(1, exp l).", "quantifier": "every value of the log ratio", "why_tests_cant": "A statement about a distribution over all ratios.", "anchors": ["bartpy/samplers/unconstrainedtree/treemutation.py:UnconstrainedTreeMutationSampler.sample"]}
{"id": "C29", "title": "Likelihood ratios of a move and its reverse cancel", "statement": "log_likihood_ratio of a grow plus log_likihood_ratio of the prune that undoes it is 0.", "quantifier": "every node, data, sigma and number of trees", "why_tests_cant": "Real-valued identity.", "anchors": ["bartpy/samplers/unconstrainedtree/likihoodratio.py:UniformTreeMutationLikihoodRatio.log_likihood_ratio_grow", "bartpy/samplers/unconstrainedtree/likihoodratio.py:UniformTreeMutationLikihoodRatio.log_likihood_ratio_prune"]}
{"id": "C30", "title": "log_grow_ratio is the log ratio of marginal likelihoods", "statement": "log_grow_ratio equals log of (marginal likelihood of the left rows times that of the right rows over that of all rows) under the normal leaf prior with standard deviation sigma_m.", "quantifier": "every count, sum, sigma > 0, sigma_m > 0", "why_tests_cant": "Real-valued identity over all arguments.", "anchors": ["bartpy/samplers/unconstrainedtree/likihoodratio.py:log_grow_ratio"]}
{"id": "C31", "title": "Transition ratios of a move and its reverse cancel", "statement": "log_transition_ratio of a grow (on the tree before) plus that of the prune undoing it (on the tree after) is 0.", "quantifier": "every reachable tree and grow", "why_tests_cant": "Needs all trees.", "anchors": ["bartpy/samplers/unconstrainedtree/likihoodratio.py:UniformTreeMutationLikihoodRatio.log_transition_ratio"]}
{"id": "C32", "title": "Tree prior ratios of a move and its reverse cancel", "statement": "log_tree_ratio of a grow plus that of the prune undoing it is 0.", "quantifier": "every reachable tree and grow", "why_tests_cant": "Needs all trees.", "anchors": ["bartpy/samplers/unconstrainedtree/likihoodratio.py:UniformTreeMutationLikihoodRatio.log_tree_ratio"]}
{"id": "C33", "title": "The sampler can always leave a tree", "statement": "From every reachable tree with more than one node some sequence of random draws changes the structure of the tree.", "quantifier": "every reachable tree, every sequence of draws, every uniform draw", "why_tests_cant": "Absorbing states are a statement about all futures.", "anchors": ["bartpy/samplers/unconstrainedtree/likihoodratio.py:UniformTreeMutationLikihoodRatio.log_prune_transition_ratio", "bartpy/samplers/unconstrainedtree/treemutation.py:UnconstrainedTreeMutationSampler.step"]}
{"id": "C34", "title": "The depth prior is a probability that decreases with depth", "statement": "For 0<alpha<1 and beta>0 the split probability alpha*(1+d)^-beta lies strictly between 0 and 1, strictly decreases with depth, and both log prior terms are finite negative numbers.", "quantifier": "every alpha, beta, depth", "why_tests_cant": "All reals and depths.", "anchors": ["bartpy/samplers/unconstrainedtree/likihoodratio.py:log_probability_node_split", "bartpy/samplers/unconstrainedtree/likihoodratio.py:log_probability_node_not_split"]}
{"id": "C35", "title": "Leaf parameters use the conjugate normal posterior", "statement": "The mean used by LeafNodeSampler is that of the exact posterior of a leaf value given the rows of the leaf, sigma and the prior N(0, sigma_m^2), is a shrinkage of the leaf mean towards 0, and the draw has the variance of this posterior.", "quantifier": "every leaf, data, sigma > 0, number of trees", "why_tests_cant": "Identity over reals; distribution.", "anchors": ["bartpy/samplers/leafnode.py:LeafNodeSampler.sample", "bartpy/model.py:Model.sigma_m"]}
{"id": "C36", "title": "Sigma uses the conjugate inverse-gamma posterior and stays positive", "statement": "SigmaSampler draws the variance from the exact posterior given the residuals; the sampled sigma is a positive real for every positive gamma draw, after any number of steps.", "quantifier": "every residual vector, prior parameters and draw", "why_tests_cant": "All reals; unbounded histories.", "anchors": ["bartpy/samplers/sigma.py:SigmaSampler.sample", "bartpy/sigma.py:Sigma"]}
{"id": "C37", "title": "Cached scalar samplers deliver each generated draw exactly once", "statement": "Any number of sample() calls returns draws of the generated batches, each used exactly once, none invented, and never fails (cache_size >= 1).", "quantifier": "every number of calls, every batch content, every cache size >= 1", "why_tests_cant": "Bugs show only at refill boundaries after many calls.", "anchors": ["bartpy/samplers/scalar.py:NormalScalarSampler", "bartpy/samplers/scalar.py:UniformScalarSampler", "bartpy/samplers/scalar.py:DiscreteSampler"]}
{"id": "C38", "title": "Each tree is fitted to the residual of all other trees", "statement": "When a tree's turn comes in a Gibbs sweep, its target is y minus the sum of the current predictions of all the other trees (already updated ones with their new values).", "quantifier": "every number of trees, every sweep, whatever the samplers do to the trees", "why_tests_cant": "Running totals over unbounded histories.", "anchors": ["bartpy/model.py:Model.refreshed_trees"]}
{"id": "C39", "title": "The running prediction stays equal to the sum of tree predictions", "statement": "After any number of complete sweeps model.predict() equals the sum over the trees of the current leaf values, for each training row, and residuals() equals y minus it.", "quantifier": "every number of sweeps and trees", "why_tests_cant": "Unbounded histories.", "anchors": ["bartpy/model.py:Model.predict", "bartpy/model.py:Model.refreshed_trees", "bartpy/model.py:Model.residuals"]}
{"id": "C40", "title": "A Gibbs sweep has the documented order", "statement": "One sampler step mutates each tree exactly once in order, resamples each leaf of the mutated tree exactly once before going to the next tree, and resamples sigma exactly once at the end.", "quantifier": "every model", "why_tests_cant": "All models and mutation outcomes.", "anchors": ["bartpy/samplers/schedule.py:SampleSchedule.steps", "bartpy/samplers/modelsampler.py:ModelSampler.step"]}
{"id": "C41", "title": "Schedule steps can be collected before they are run", "statement": "list(schedule.steps(model)) followed by running the callables does the same tree steps as running each callable when it is yielded.", "quantifier": "every model", "why_tests_cant": "Depends on evaluation order.", "anchors": ["bartpy/samplers/schedule.py:SampleSchedule.steps"]}
{"id": "C42", "title": "Initial trees share the target equally", "statement": "After construction each of the n_trees trees is a single leaf with value 0 whose target is y / n_trees.", "quantifier": "every dataset and number of trees", "why_tests_cant": "All datasets.", "anchors": ["bartpy/model.py:Model.initialize_trees"]}
{"id": "C43", "title": "thin is the proportion of samples that is stored", "statement": "samples() stores thin * n_samples model samples.", "quantifier": "every n_samples and thin in (0, 1]", "why_tests_cant": "Float remainder over all values.", "anchors": ["bartpy/samplers/modelsampler.py:ModelSampler.samples", "bartpy/sklearnmodel.py:SklearnModel.__init__"]}
{"id": "C44", "title": "Stored samples are the states after the burn-in, in order", "statement": "The k-th stored sample is the model after exactly n_burn + s_k + 1 Gibbs sweeps, where s_k is the k-th multiple of 1/thin below n_samples; nothing from the burn-in is stored; model, acceptance and prediction traces have the same length when stored.", "quantifier": "every n_burn, n_samples, thin", "why_tests_cant": "All counts.", "anchors": ["bartpy/samplers/modelsampler.py:ModelSampler.samples"]}
{"id": "C45", "title": "The acceptance rate is the fraction of accepted tree mutations", "statement": "The recorded acceptance of a sweep is (number of accepted mutations)/(number of trees) and lies in [0, 1].", "quantifier": "every model and outcome", "why_tests_cant": "All outcomes.", "anchors": ["bartpy/samplers/modelsampler.py:ModelSampler.step", "bartpy/trace.py:TraceLogger"]}
{"id": "C46", "title": "Stored samples are not affected by later sampling", "statement": "The out-of-sample predictions, leaf values, structure and sigma of a stored sample never change, whatever happens to the live model afterwards.", "quantifier": "every later history", "why_tests_cant": "Aliasing bugs need specific later operations.", "anchors": ["bartpy/model.py:deep_copy_model", "bartpy/tree.py:deep_copy_tree", "bartpy/node.py:deep_copy_node"]}
{"id": "C47", "title": "Stored samples keep the model parameters", "statement": "A stored sample has the alpha, beta, k, number of trees and sigma of the model it was taken from.", "quantifier": "every model", "why_tests_cant": "All parameters.", "anchors": ["bartpy/model.py:deep_copy_model"]}
{"id": "C48", "title": "predict(X) is the unnormalised mean over stored samples", "statement": "SklearnModel.predict(X) equals for each row the average over the stored samples of their predictions on the original scale and lies between the smallest and the largest of these.", "quantifier": "every extract, X and target", "why_tests_cant": "All extracts.", "anchors": ["bartpy/sklearnmodel.py:SklearnModel._out_of_sample_predict", "bartpy/sklearnmodel.py:SklearnModel.predict"]}
{"id": "C49", "title": "predict() equals predict(X_train)", "statement": "With store_in_sample_predictions=True, predict() after fit returns the same as predict(X_train).", "quantifier": "every dataset without NaN/-inf, every parameter setting, every sequence of draws", "why_tests_cant": "Two different code paths over unbounded histories.", "anchors": ["bartpy/sklearnmodel.py:SklearnModel.predict", "bartpy/samplers/modelsampler.py:ModelSampler.samples"]}
{"id": "C50", "title": "Prediction errors are consistent", "statement": "residuals(X, y) = y - predict(X), l2_error is its square and rmse(X, y) is the root of the mean squared error.", "quantifier": "every fitted model, X, y", "why_tests_cant": "All inputs.", "anchors": ["bartpy/sklearnmodel.py:SklearnModel.residuals", "bartpy/sklearnmodel.py:SklearnModel.l2_error", "bartpy/sklearnmodel.py:SklearnModel.rmse"]}
{"id": "C51", "title": "Chains are combined completely and in order", "statement": "The combined samples are the samples of chain 1, then chain 2, ...; their number is the sum over chains; with n_chains equal chains it is n_chains times the per-chain count.", "quantifier": "every number and length of chains", "why_tests_cant": "All sizes.", "anchors": ["bartpy/sklearnmodel.py:SklearnModel._combine_chains"]}
{"id": "C52", "title": "Invalid use is reported", "statement": "predict() without X raises ValueError when in-sample predictions were not stored; fitting an empty matrix raises ValueError.", "quantifier": "every model", "why_tests_cant": "All configurations.", "anchors": ["bartpy/sklearnmodel.py:SklearnModel.predict", "bartpy/sklearnmodel.py:SklearnModel._construct_model"]}
{"id": "C53", "title": "prediction_samples returns the stored prediction samples", "statement": "The prediction_samples property returns the matrix of stored in-sample predictions.", "quantifier": "every fitted model", "why_tests_cant": "Never exercised by tests; divergence for all models.", "anchors": ["bartpy/sklearnmodel.py:SklearnModel.prediction_samples"]}
{"id": "C54", "title": "run_models assigns chains to the data sets they were run on", "statement": "The i-th group of chains handed to the i-th returned model consists of exactly the n_chains chains run on data set i.", "quantifier": "every number of data sets and chains", "why_tests_cant": "All sizes.", "anchors": ["bartpy/runner.py:convert_chains_models", "bartpy/runner.py:run_models"]}
{"id": "C55", "title": "from_extract returns a model with the samples of the extract", "statement": "model.from_extract(extract, X, y) returns a model whose samples are those of the extract and leaves model itself unchanged; run_models therefore returns models whose samples come from their own data set.", "quantifier": "every model and extract", "why_tests_cant": "State leaks between calls over call sequences.", "anchors": ["bartpy/sklearnmodel.py:SklearnModel.from_extract", "bartpy/runner.py:convert_chains_models"]}
{"id": "C56", "title": "Null-distribution selection compares the real model with the null", "statement": "SelectNullDistributionThreshold.fit computes feature_proportions from the samples of the model fitted to the real y.", "quantifier": "every dataset and number of permutations", "why_tests_cant": "State leak through from_extract.", "anchors": ["bartpy/features/featureselection.py:SelectNullDistributionThreshold.fit"]}
{"id": "C57", "title": "Feature split proportions count the splits", "statement": "feature_split_proportions gives each feature the share of nodes created by a split on it; each decision node on a feature counts twice; the shares are in [0, 1] and sum to 1 minus the share of root nodes.", "quantifier": "every collection of stored reachable trees", "why_tests_cant": "All trees.", "anchors": ["bartpy/diagnostics/features.py:feature_split_proportions"]}
{"id": "C58", "title": "Kept features are those above their threshold", "statement": "kept_features returns in increasing order exactly the features whose proportion exceeds their threshold, and partition_into_passed_and_failed_features splits all features accordingly.", "quantifier": "every proportion and threshold map", "why_tests_cant": "All maps.", "anchors": ["bartpy/diagnostics/features.py:kept_features", "bartpy/diagnostics/features.py:is_kept", "bartpy/diagnostics/features.py:partition_into_passed_and_failed_features"]}
{"id": "C59", "title": "The support mask has one entry per column", "statement": "The support mask of the feature selectors has as many entries as the covariate matrix has columns, entry j concerning column j.", "quantifier": "every fitted model", "why_tests_cant": "Depends on which features happened to be split on.", "anchors": ["bartpy/features/featureselection.py:SelectSplitProportionThreshold._get_support_mask"]}
{"id": "C60", "title": "The percentile argument selects that quantile of the null distribution", "statement": "local_thresholds with percentile=0.95 gives a threshold that at least 95% of the null values do not exceed.", "quantifier": "every null distribution", "why_tests_cant": "All distributions.", "anchors": ["bartpy/diagnostics/features.py:local_thresholds"]}
{"id": "C61", "title": "Permutation RMSE uses matching test rows", "statement": "In null_rmse_distribution the i-th prediction is compared with the target of the same (test) row.", "quantifier": "every dataset and fold structure", "why_tests_cant": "All fold structures.", "anchors": ["bartpy/features/featureimportance.py:null_rmse_distribution"]}
{"id": "C62", "title": "Mapping an sklearn tree preserves its predictions", "statement": "map_sklearn_tree_into_bartpy turns a fresh single-leaf tree into one whose predictions equal those of the sklearn tree on every row.", "quantifier": "every sklearn tree structure, every row without NaN/-inf", "why_tests_cant": "All trees and rows; the test uses one random depth-2 tree.", "anchors": ["bartpy/initializers/sklearntreeinitializer.py:map_sklearn_tree_into_bartpy"]}
{"id": "C63", "title": "The sklearn initializer can be used", "statement": "Model(data, sigma, initializer=SklearnTreeInitializer()) initialises the trees without an error.", "quantifier": "every dataset and n_trees >= 1", "why_tests_cant": "Not exercised by tests.", "anchors": ["bartpy/initializers/sklearntreeinitializer.py:SklearnTreeInitializer.initialize_tree"]}
{"id": "C64", "title": "ResidualBART adds the base estimator and the BART fit of its residuals", "statement": "ResidualBART.predict(X) is the base prediction plus the BART prediction fitted to the base residuals; its residuals are the base residuals minus the BART prediction.", "quantifier": "every base estimator and dataset", "why_tests_cant": "All estimators.", "anchors": ["bartpy/extensions/baseestimator.py:ResidualBART", "bartpy/extensions/ols.py:OLS"]}
{"id": "C65", "title": "Oblivious growth keeps a partition", "statement": "Growing with the oblivious proposer gives a tree whose leaves partition the training rows.", "quantifier": "every tree and draws", "why_tests_cant": "Needs a leaf that cannot be split.", "anchors": ["bartpy/samplers/oblivioustrees/proposer.py:sample_split_node"]}
{"id": "C66", "title": "Oblivious trees use one split rule per depth", "statement": "After a grow step of the oblivious sampler all decision nodes created by this step use the same variable and value.", "quantifier": "every tree and draws", "why_tests_cant": "All draws.", "anchors": ["bartpy/samplers/oblivioustrees/proposer.py:grow_mutations"]}
{"id": "C67", "title": "Sampling with valid settings never raises", "statement": "On covariates without NaN, with sigma > 0, k > 0, n_trees >= 1, 0 < alpha < 1, beta >= 0, positive move probabilities and positive inverse-gamma draws, a Gibbs sweep of a reachable model raises nothing: it returns unless proposing never ends (see C27).", "quantifier": "every dataset, number of sweeps and draws", "why_tests_cant": "All runs; a test executes one.", "anchors": ["bartpy/samplers/schedule.py:SampleSchedule.steps", "bartpy/samplers/leafnode.py:LeafNodeSampler.step", "bartpy/samplers/sigma.py:SigmaSampler.step", "bartpy/samplers/treemutation.py:TreeMutationLikihoodRatio.log_probability_ratio"]}
{"id": "C68", "title": "The total ratio of a grow and that of the prune undoing it are reciprocal", "statement": "log_probability_ratio of a grow (on the tree before) plus that of the prune undoing it (on the tree after) is 0, as detailed balance requires.", "quantifier": "every reachable tree, grow, data and parameters", "why_tests_cant": "All trees.", "anchors": ["bartpy/samplers/treemutation.py:TreeMutationLikihoodRatio.log_probability_ratio", "bartpy/samplers/unconstrainedtree/likihoodratio.py:UniformTreeMutationLikihoodRatio"]}
{"id": "C69", "title": "Stored trees are self-contained", "statement": "The children of a decision node of a stored sample are nodes of the same stored tree, so that walking a stored tree from its root leads to the stored leaves and their values, whatever happens to the live model.", "quantifier": "every stored sample and every later history", "why_tests_cant": "Aliasing shows only after particular later operations.", "anchors": ["bartpy/node.py:deep_copy_node", "bartpy/tree.py:deep_copy_tree"]}
{"id": "C70", "title": "Fitting valid data never raises and can complete", "statement": "SklearnModel.fit on covariates without NaN, with valid settings and positive inverse-gamma draws raises nothing; and when some column can be split there are draws with which it completes.", "quantifier": "every dataset, valid settings and draws", "why_tests_cant": "All runs; a test executes one.", "anchors": ["bartpy/sklearnmodel.py:SklearnModel.fit", "bartpy/sklearnmodel.py:run_chain"]}
{"id": "C71", "title": "original_model_rmse scores each fold on its own test rows", "statement": "original_model_rmse returns one value per fold: the model is fitted on the training rows of the fold, and the prediction for each test row is compared with the target of the same row; earlier folds do not influence later ones.", "quantifier": "every dataset, fold structure and draws", "why_tests_cant": "All fold structures.", "anchors": ["bartpy/features/featureimportance.py:original_model_rmse"]}
{"id": "C72", "title": "Every split separates training rows", "statement": "At every decision node of a sampled tree at least one training row of the node goes left and at least one goes right; so a column that is constant is never split on.", "quantifier": "every dataset, number of sweeps and draws", "why_tests_cant": "All runs.", "anchors": ["bartpy/data.py:CovariateMatrix.random_splittable_value", "bartpy/samplers/unconstrainedtree/proposer.py:UniformMutationProposer.propose"]}
{"id": "C73", "title": "A custom initializer keeps the model consistent", "statement": "If the initializer passed to Model works on each tree by mutations and value settings and raises nothing, the model is constructed with n_trees trees and its prediction is, for each training row, the sum over the trees of the value of the row's leaf; the running prediction used by the sampler is the same array of numbers.", "quantifier": "every dataset, number of trees and initializer", "why_tests_cant": "All initializers.", "anchors": ["bartpy/model.py:Model.initialize_trees", "bartpy/initializers/initializer.py:Initializer.initialize_trees"]}
{"id": "C74", "title": "An oblivious prune step removes exactly the lowest splits", "statement": "An accepted prune step of the oblivious sampler removes exactly the decision nodes whose two children are leaves, together with these leaves; in place of each there is a new leaf holding the same training rows; everything else stays, and the result is a rooted binary tree whose leaves partition the training rows.", "quantifier": "every reachable tree, data and draws", "why_tests_cant": "All trees; several mutations are applied in a row and each must still refer to nodes of the changed tree.", "anchors": ["bartpy/samplers/oblivioustrees/proposer.py:prune_mutations", "bartpy/samplers/oblivioustrees/treemutation.py:UnconstrainedTreeMutationSampler.step"]}
{"id": "C75", "title": "A step of the oblivious sampler never raises", "statement": "With positive move probabilities a step of the oblivious tree sampler on a tree with a target raises nothing.", "quantifier": "every reachable tree, data and draws", "why_tests_cant": "The failing case needs a root that cannot be split.", "anchors": ["bartpy/samplers/oblivioustrees/treemutation.py:UnconstrainedTreeMutationSampler.step", "bartpy/samplers/oblivioustrees/likihoodratio.py:log_probability_split_within_node"]}
{"id": "C76", "title": "A rejected oblivious step changes nothing", "statement": "If the oblivious sampler rejects its proposal, or proposes to prune a tree with nothing to prune, the nodes of the tree, their conditions, values, rows and target and the stored prediction are as before.", "quantifier": "every reachable tree, data and draws", "why_tests_cant": "All trees and draws.", "anchors": ["bartpy/samplers/oblivioustrees/treemutation.py:UnconstrainedTreeMutationSampler.sample", "bartpy/samplers/oblivioustrees/treemutation.py:UnconstrainedTreeMutationSampler.step"]}
{"id": "C77", "title": "ResidualBART does not touch the estimator it is given", "statement": "ResidualBART(base_estimator) works on its own copy: fitting it changes neither the estimator object of the caller nor the predictions of another ResidualBART made from the same estimator.", "quantifier": "every estimator, dataset and draws", "why_tests_cant": "Shows only when an estimator object is used twice.", "anchors": ["bartpy/extensions/baseestimator.py:ResidualBART.__init__", "bartpy/extensions/baseestimator.py:ResidualBART.fit"]}
{"id": "C78", "title": "Predictions follow the units of the target", "statement": "Fitting to a*y + b with a > 0 instead of y, with the same random draws, gives the predictions a*f + b where f are the predictions of the fit to y, in and out of sample; residuals are multiplied by a and squared errors by a^2; an exception occurs in both fits or in neither.", "quantifier": "every dataset, settings, draws, a > 0 and b", "why_tests_cant": "Relates two whole runs of the sampler for all data and draws.", "anchors": ["bartpy/data.py:Target.normalize_y", "bartpy/sklearnmodel.py:SklearnModel.fit", "bartpy/sklearnmodel.py:SklearnModel.predict"]}
{"id": "C79", "title": "Predictions do not depend on the units of the features", "statement": "Replacing each column by a strictly increasing function of it, in the training data and in the data to predict, changes no prediction, residual, acceptance rate or feature split proportion of a fit with the same random draws; an exception occurs in both fits or in neither.", "quantifier": "every dataset, settings, draws and strictly increasing functions", "why_tests_cant": "Relates two whole runs of the sampler for all data and draws.", "anchors": ["bartpy/sklearnmodel.py:SklearnModel.fit", "bartpy/sklearnmodel.py:SklearnModel.predict", "bartpy/splitcondition.py:SplitCondition", "bartpy/data.py:CovariateMatrix"]}
{"id": "C80", "title": "A second fit forgets the first", "statement": "Calling fit on an estimator that has been fitted before, to any data, has the result that a fresh estimator with the same settings would have with the same random draws.", "quantifier": "every pair of datasets, settings and draws", "why_tests_cant": "All pairs of datasets.", "anchors": ["bartpy/sklearnmodel.py:SklearnModel.fit", "bartpy/sklearnmodel.py:SklearnModel._construct_model"]}
{"id": "C81", "title": "set_params has the effect of the constructor argument", "statement": "set_params(name=value) followed by fit has the result of constructing a SklearnModel with this value and the other current settings and fitting it with the same random draws, at any time of the life of the estimator.", "quantifier": "every settings, assignment, history of assignments and fits, dataset and draws", "why_tests_cant": "Used by every grid search; a wrong setting gives plausible results.", "anchors": ["bartpy/sklearnmodel.py:SklearnModel.__init__", "bartpy/sklearnmodel.py:SklearnModel.fit"]}
{"id": "C82", "title": "clone keeps the settings", "statement": "sklearn.base.clone of an estimator (SklearnModel, ResidualBART, OLS) is an unfitted estimator with the same settings; fitting it gives what fitting the original would give.", "quantifier": "every estimator, settings and history", "why_tests_cant": "clone is used by all cross validation; wrong settings are not noticed.", "anchors": ["bartpy/sklearnmodel.py:SklearnModel.__init__", "bartpy/extensions/baseestimator.py:ResidualBART.__init__", "bartpy/extensions/ols.py:OLS.__init__"]}
{"id": "C83", "title": "The feature selectors are well-behaved sklearn objects", "statement": "SelectSplitProportionThreshold and SelectNullDistributionThreshold can be cloned, leave the model given to them alone, and an unknown method is reported by NotImplementedError.", "quantifier": "every model, percentile and method", "why_tests_cant": "Needed in every pipeline; depends on how the constructor treats its arguments.", "anchors": ["bartpy/features/featureselection.py:SelectSplitProportionThreshold.__init__", "bartpy/features/featureselection.py:SelectNullDistributionThreshold.__init__"]}
{"id": "C84", "title": "Seeding makes a fit reproducible", "statement": "After np.random.seed(s) all random draws of a fit are determined by s, whatever was drawn in the process before.", "quantifier": "every history of the process, seed and sequence of draws", "why_tests_cant": "A test in a new process sees no leftovers.", "anchors": ["bartpy/samplers/scalar.py:UniformScalarSampler", "bartpy/samplers/scalar.py:NormalScalarSampler", "bartpy/samplers/scalar.py:DiscreteSampler"]}
{"id": "C85", "title": "Chains in different processes draw different numbers", "statement": "The draws of each chain come from the generator of the process the chain runs in, so that chains are independent when the generators are.", "quantifier": "every history of the parent process, states of the generators and sequence of draws", "why_tests_cant": "Identical beginnings of chains are not visible in any single output.", "anchors": ["bartpy/samplers/scalar.py:NormalScalarSampler", "bartpy/sklearnmodel.py:SklearnModel.fit"]}
{"id": "C86", "title": "What is stored does not influence the sampling", "statement": "n_samples, n_burn, thin, store_in_sample_predictions and store_acceptance_trace only decide how long a chain is and what is kept of it. With the same random draws, two samples kept the same number of sweeps after the start of the burn-in have the same predictions for all data, the same sigma and the same records; two chains with the same total number of sweeps raise the same exception or none; the two store flags change no prediction of a fit. The samples of a fit with one chain are those of a fit without burn-in and thinning and with at least as many sweeps, of which the first n_burn are left out and, of the following n_samples, those are kept whose number is a multiple of 1 / thin.", "quantifier": "every dataset, settings and draws", "why_tests_cant": "Compares whole runs for all settings; the stored copies share arrays with the running model, so that storing could change what follows.", "anchors": ["bartpy/samplers/modelsampler.py:ModelSampler.samples", "bartpy/sklearnmodel.py:SklearnModel.fit", "bartpy/sklearnmodel.py:SklearnModel.predict"]}
{"id": "C87", "title": "Constant columns do not matter", "statement": "Adding columns to X that are constant in the training data, anywhere, changes nothing: with the same random draws the fit raises the same exception or none, and makes the same predictions for all data (whatever the new columns of the data to predict contain, as long as it is neither NaN nor -inf), the same predictions on the training data, the same acceptance trace and the same samples of sigma.", "quantifier": "every dataset, position and number of constant columns, settings, draws and data to predict", "why_tests_cant": "Relates two whole runs on tables of different shape, for all draws.", "anchors": ["bartpy/data.py:is_not_constant", "bartpy/data.py:CovariateMatrix.splittable_variables", "bartpy/samplers/unconstrainedtree/proposer.py:sample_split_condition", "bartpy/splitcondition.py:CombinedCondition.condition"]}
{"id": "C88", "title": "A fitted model is a mean of sums of decision trees", "statement": "After a fit there are, for each stored sample, n_trees ordinary decision trees such that the prediction for each row without NaN and -inf is the mean over the samples of the sum of the values of the trees, put on the scale of the target. Each comparison in the trees is with a value of the same column of the training data that is not the largest there.", "quantifier": "every dataset, settings, draws and data to predict", "why_tests_cant": "The trees are stored as nodes with masks, caches and combined conditions; that together they amount to decision trees is a statement about all runs and all rows.", "anchors": ["bartpy/sklearnmodel.py:SklearnModel.predict", "bartpy/model.py:Model._out_of_sample_predict", "bartpy/tree.py:Tree.predict", "bartpy/splitcondition.py:CombinedCondition.condition"]}
{"id": "C89", "title": "Where predictions are constant", "statement": "The prediction for a row is a function of this row alone, not of the other rows in the same call. Two rows that compare in the same way with all training values, except the largest one of each column, get the same prediction. In particular there is no extrapolation: nothing changes when an entry moves beyond the largest or below the smallest training value.", "quantifier": "every fit and every pair of rows without NaN and -inf", "why_tests_cant": "All pairs of rows, all fits.", "anchors": ["bartpy/sklearnmodel.py:SklearnModel.predict", "bartpy/tree.py:Tree.predict", "bartpy/data.py:CovariateMatrix.max_value_of_column"]}
{"id": "C90", "title": "The sigma plot shows the noise level in the units of the target", "statement": "plot_sigma_convergence shows, for each stored sample in order, the standard deviation of the noise in the units of the target.", "quantifier": "every fit", "why_tests_cant": "The curve looks the same in wrong units; depends on what is stored.", "anchors": ["bartpy/diagnostics/sigma.py:plot_sigma_convergence", "bartpy/sigma.py:Sigma.current_unnormalized_value"]}
{"id": "C91", "title": "The depth plot shows how deep the trees are", "statement": "plot_tree_depth shows, for each stored sample, the depth of the shallowest tree, the mean depth of the trees and the depth of the deepest tree.", "quantifier": "every fit with at least one tree", "why_tests_cant": "Needs the depths of all nodes to be right in all stored samples.", "anchors": ["bartpy/diagnostics/trees.py:plot_tree_depth", "bartpy/node.py:deep_copy_node"]}
{"id": "C92", "title": "The other diagnostic plots show residuals, fitted values and acceptance rates", "statement": "After a fit plot_qq shows target minus predict(X) for each row of the training data, plot_homoskedasity_diagnostics these against predict(X), and plot_tree_mutation_acceptance_rate one value in [0, 1] for each stored sample.", "quantifier": "every fit with at least one sample and tree", "why_tests_cant": "All runs; the plots read the training data back out of internal objects.", "anchors": ["bartpy/diagnostics/residuals.py:plot_qq", "bartpy/diagnostics/residuals.py:plot_homoskedasity_diagnostics", "bartpy/diagnostics/sampling.py:plot_tree_mutation_acceptance_rate"]}
{"id": "C93", "title": "The plots of bartpy.plotting can be used", "statement": "plot_residuals and plot_modelled_against_actual work on a fitted model.", "quantifier": "every fit", "why_tests_cant": "Plots are rarely tested.", "anchors": ["bartpy/plotting.py:plot_residuals", "bartpy/plotting.py:plot_modelled_against_actual"]}
{"id": "C94", "title": "Unnormalized residuals are residuals in the units of the target", "statement": "The unnormalized residuals of a model are the target minus the prediction, both on the original scale, and equal its residuals times the range of the target.", "quantifier": "every dataset and state of the model", "why_tests_cant": "An identity for all data.", "anchors": ["bartpy/model.py:Model.unnormalized_residuals", "bartpy/data.py:Target.unnormalize_y"]}
{"id": "C95", "title": "predict rejects data with another number of columns", "statement": "predict(X) raises an exception if X does not have the same number of columns as the training data.", "quantifier": "every fit, every shape of X", "why_tests_cant": "Silent misuse.", "anchors": ["bartpy/splitcondition.py:CombinedCondition.condition", "bartpy/tree.py:Tree.predict", "bartpy/sklearnmodel.py:SklearnModel.predict"]}
{"id": "C96", "title": "DataFrames are supported wherever the signatures say so", "statement": "fit, predict, original_model_rmse, null_rmse_distribution and feature_importance accept a DataFrame; the result is that for its values; columns are matched by name.", "quantifier": "every DataFrame with strings as column labels", "why_tests_cant": "All shapes; depends on what indexing means for a DataFrame.", "anchors": ["bartpy/data.py:ensure_numpy_array", "bartpy/features/featureimportance.py:original_model_rmse", "bartpy/features/featureimportance.py:null_rmse_distribution", "bartpy/model.py:Model._out_of_sample_predict"]}
{"id": "C97", "title": "feature_importance works with an untrained model", "statement": "As documented, the model given to feature_importance does not have to be trained; the result is the RMSEs of the folds and the null distribution, with one entry for each fold and for each fold and permutation.", "quantifier": "every model, dataset, folds, permutations and draws", "why_tests_cant": "A trained model hides the failure.", "anchors": ["bartpy/features/featureimportance.py:feature_importance", "bartpy/sklearnmodel.py:SklearnModel.from_extract"]}
{"id": "C98", "title": "fit_predict is fit followed by predict", "statement": "fit_predict(X, y) fits the model and returns predict(X), whether in-sample predictions are stored or not; it raises exactly what fit(X, y) and then predict(X) raise.", "quantifier": "every dataset without NaN and -inf, settings and draws", "why_tests_cant": "Two different code paths (stored in-sample predictions, or out-of-sample prediction) have to agree for all runs.", "anchors": ["bartpy/sklearnmodel.py:SklearnModel.fit_predict", "bartpy/sklearnmodel.py:SklearnModel.predict"]}
{"id": "C99", "title": "The settings of the estimator are those of the model that is sampled", "statement": "At every time of every chain of SklearnModel.fit the sampled model has n_trees trees, the tree prior alpha, beta, and the inverse gamma prior with shape sigma_a and rate sigma_b that the estimator was given; sampling never changes them. Sampling starts with sigma = 1. At any time of the life of the estimator a fit uses the settings it reports, and the probabilities of growing and pruning of the tree sampler it was made with.", "quantifier": "every dataset without NaN, settings, draws and time of a chain", "why_tests_cant": "Settings that are mixed up or overwritten still give plausible results.", "anchors": ["bartpy/sklearnmodel.py:SklearnModel._construct_model", "bartpy/model.py:Model.__init__", "bartpy/sigma.py:Sigma.__init__"]}
{"id": "C100", "title": "The plots of the feature selectors show what is selected", "statement": "plot_feature_split_proportions shows one bar for each feature that is split on, in increasing order of the features, with the proportion of feature_split_proportions as its length. SelectNullDistributionThreshold.plot shows, in percent, a bar for the threshold of each column, a green point for each feature that get_support selects and a red point for each that it rejects, and for each column the values of its null distribution, one for each permutation; after a fit neither raises.", "quantifier": "every fit without NaN, settings, permutations and draws", "why_tests_cant": "Plots are rarely tested; the colours are computed separately from the mask.", "anchors": ["bartpy/diagnostics/features.py:plot_feature_split_proportions", "bartpy/diagnostics/features.py:plot_feature_proportions_against_thresholds", "bartpy/diagnostics/features.py:plot_null_feature_importance_distributions", "bartpy/features/featureselection.py:SelectNullDistributionThreshold.plot", "bartpy/features/featureselection.py:SelectSplitProportionThreshold.plot"]}
{"id": "C101", "title": "A fit can start from trees of the user's own", "statement": "A model with an initializer of the user's own that builds its tree by legal grow steps can be fitted: with no initializer the fit is the usual one; at every time of every chain the model has the settings of the estimator, n_trees well-formed trees, and a running prediction equal to the sum over the trees of the values of the leaves; the fit holds n_chains times the number of samples of a chain, each of n_trees such trees; and predict() equals predict(X_train).", "quantifier": "every dataset without NaN (and -inf for predict), legal initializer, settings and draws", "why_tests_cant": "The first sweep starts from a prediction that the initializer has filled; an error shows only as a bias.", "anchors": ["bartpy/model.py:Model.initialize_trees", "bartpy/sklearnmodel.py:SklearnModel._construct_model", "bartpy/initializers/initializer.py:Initializer.initialize_trees"]}
{"id": "C102", "title": "Splits made by an initializer can be removed by the sampler", "statement": "A tree that an initializer has built is only a starting point: the sampler can remove each of its splits again, that is, in every tree the removal of a prunable split is accepted for some draws, and every leaf can be resampled.", "quantifier": "every dataset without NaN, tree reached by an initializer and the sampler, and later draws", "why_tests_cant": "A split that is never removed looks like a well supported one; only a statement about all later draws excludes it.", "anchors": ["bartpy/samplers/unconstrainedtree/likihoodratio.py:log_probability_split_within_node", "bartpy/samplers/unconstrainedtree/likihoodratio.py:UniformTreeMutationLikihoodRatio.log_prune_transition_ratio", "bartpy/data.py:CovariateMatrix.proportion_of_value_in_variable", "bartpy/initializers/sklearntreeinitializer.py:map_sklearn_tree_into_bartpy"]}
{"id": "C103", "title": "A fit is the BART sampler on the raw data, draw by draw", "statement": "fit and predict give exactly what a reference sampler gives that is written without caches, masks, node objects, running predictions and sufficient statistics: a tree is a list of nodes known by their conditions, the rows of a node, their number and target sum, the columns that can be split, the prunable splits, the residuals and predictions are computed afresh from the training data each time. With the same random draws, fit raises the same exception or keeps as many samples, and sample by sample sigma, the share of accepted changes, the predictions for all new data and for the training data agree; so does the final prediction, the mean over the samples on the scale of the target.", "quantifier": "every dataset without NaN whose target is not constant, every setting with at least one chain, nonzero thin, p_grow and p_prune, every stream of draws, every number of trees, sweeps and chains; predictions for rows without NaN and -inf", "why_tests_cant": "The library carries the same information in many places (cached counts and sums, masks, links between copied nodes, a running prediction) over thousands of sweeps; one stale entry shows up only as a slightly wrong posterior.", "anchors": ["bartpy/sklearnmodel.py:SklearnModel.fit", "bartpy/sklearnmodel.py:SklearnModel.predict", "bartpy/samplers/modelsampler.py:ModelSampler.samples", "bartpy/model.py:Model.refreshed_trees", "bartpy/samplers/unconstrainedtree/treemutation.py:UnconstrainedTreeMutationSampler.step", "bartpy/samplers/leafnode.py:LeafNodeSampler.step", "bartpy/samplers/sigma.py:SigmaSampler.step"]}
{"id": "C104", "title": "Order of the columns", "statement": "The order of the columns of X does not matter. There is a one-to-one correspondence between the random draws, which leaves all draws alone but the results of np.random.choice and exchanges these against equally likely ones, under which the fits to X and to X with reordered columns raise the same exception, or return estimators with the same predictions for all data (columns reordered in the same way), the same predictions for the training data, the same samples of sigma and the same acceptance trace. So the predictions have the same distribution.", "quantifier": "All tables without NaN with at least one column, all targets that are not constant, all settings with at least one chain and one sample, positive proposal probabilities and thin, all permutations of the columns, all draws; predictions for rows without NaN and -inf.", "why_tests_cant": "A test with one seed sees different numbers for the two orders and cannot tell whether the distributions agree.", "anchors": ["bartpy/samplers/unconstrainedtree/proposer.py:sample_split_condition", "bartpy/data.py:CovariateMatrix.splittable_variables", "bartpy/data.py:CovariateMatrix.random_splittable_variable", "bartpy/samplers/unconstrainedtree/likihoodratio.py:log_probability_split_within_node"]}
{"id": "C105", "title": "Order of the training rows", "statement": "The order of the training rows does not matter, in the same sense as for the columns (C104): up to a one-to-one correspondence between the draws the fits to the data in any two orders agree, with predictions for the training data in the respective order.", "quantifier": "All tables without NaN with at least one column, all targets that are not constant, all settings with at least one chain and one sample, all permutations of the rows, all draws.", "why_tests_cant": "A test compares single runs; that two distributions are equal, or that a data set in one order can never be fitted at all, is not visible in finitely many runs.", "anchors": ["bartpy/data.py:is_not_constant", "bartpy/data.py:CovariateMatrix.splittable_variables", "bartpy/samplers/unconstrainedtree/proposer.py:UniformMutationProposer.propose", "bartpy/samplers/unconstrainedtree/proposer.py:sample_split_condition"]}
{"id": "C106", "title": "Steps of the tree sampler at a fixed target change a tree only a bounded number of times", "statement": "While the target, sigma and the settings stay the same, steps of the tree sampler (mixed with leaf steps, predictions and repeated updates with the same target) never bring a tree back to splits it has left: if the splits are the same at two times, they were the same all the time in between. The number of changes is at most a number that depends only on the training data and the tree at the start, whatever the target, the parameters and the draws. A step changes the splits exactly if it reports a mutation.", "quantifier": "All tables without NaN, all reachable trees, all targets, parameters and nonzero proposal probabilities, all numbers of steps, all draws (uniform draws are at least 0).", "why_tests_cant": "A test sees a chain that changes now and then; that no chain of any length returns, and that the number of changes is bounded in advance, is a statement about all draws. It is a consequence of comparing a uniform number with the log ratio (C28); a Metropolis-Hastings sampler would return to every tree.", "anchors": ["bartpy/samplers/unconstrainedtree/treemutation.py:UnconstrainedTreeMutationSampler.sample", "bartpy/samplers/treemutation.py:TreeMutationLikihoodRatio.log_probability_ratio"]}
{"id": "C107", "title": "Splits and size of sampled trees", "statement": "In every tree of every sample each split is on a column with two different values among the training rows of the node, at a value that occurs there and is not the largest, and its node has at least three training rows. So with n training rows a tree has at most n - 1 leaves (or is a single leaf), nodes at depth at most n - 2, and takes at most n - 1 different values on new data; with one or two rows it is a single leaf. The trees of a fitted model have these depths too.", "quantifier": "All tables without NaN, targets, settings with nonzero proposal probabilities, numbers of sweeps and draws.", "why_tests_cant": "Bounds that have to hold for all runs and all data; a test sees the trees of a few runs.", "anchors": ["bartpy/samplers/unconstrainedtree/proposer.py:sample_split_condition", "bartpy/data.py:CovariateMatrix.splittable_variables", "bartpy/data.py:CovariateMatrix.random_splittable_value", "bartpy/tree.py:Tree.splittable_leaf_nodes"]}
{"id": "C108", "title": "Training data with two different rows can be fitted", "statement": "For valid settings and a target that is not constant, fit can return a model for every training table that has a column with two different values.", "quantifier": "All tables without NaN, all targets that are not constant, all valid settings with at least one sweep, all draws.", "why_tests_cant": "Whether a call can return at all is a statement about all sequences of draws; a test that hangs or hits the recursion limit does not show that no seed would help.", "anchors": ["bartpy/samplers/unconstrainedtree/proposer.py:UniformMutationProposer.propose", "bartpy/data.py:is_not_constant", "bartpy/sklearnmodel.py:SklearnModel.fit"]}
{"id": "C109", "title": "Chains are averaged", "statement": "A fit with several chains returns if and only if the fits with one chain return that use the draws of one of the chains each, and then its predictions are the averages of their predictions.", "quantifier": "All tables without NaN with at least one column, targets that are not constant, settings with nonzero thin and proposal probabilities, at least one chain and one sample; all draws; rows without NaN and -inf.", "why_tests_cant": "Chains could share state, or be weighted by their number of samples, without any single run looking wrong.", "anchors": ["bartpy/sklearnmodel.py:SklearnModel.fit", "bartpy/sklearnmodel.py:SklearnModel._combine_chains", "bartpy/sklearnmodel.py:SklearnModel._out_of_sample_predict"]}
{"id": "C110", "title": "The transition ratio is the ratio of the probabilities of proposals", "statement": "With probability 1 a proposal is made as soon as one exists. A given split is proposed with the probability of growing (1 if nothing can be removed), divided by the number of leaves that can be split and by the number of columns of the leaf that can be split, times the probability of the cut value; a given removal with the probability of pruning (1 if nothing can be split), divided by the number of removable splits. The transition ratio that enters the acceptance of a proposal is the probability of the reverse proposal in the changed tree divided by the probability of the proposal.", "quantifier": "All tables without NaN, all reachable trees, targets and positive proposal probabilities with sum 1, all splits and removals that can be proposed.", "why_tests_cant": "Probabilities of proposals, including the unbounded number of repetitions inside a call, cannot be read off from test runs.", "anchors": ["bartpy/samplers/unconstrainedtree/likihoodratio.py:log_transition_ratio", "bartpy/samplers/unconstrainedtree/proposer.py:UniformMutationProposer.propose", "bartpy/data.py:random_splittable_value"]}
{"id": "C111", "title": "The posterior distribution of trees is left unchanged", "statement": "While target, sigma and settings stay the same, a step of the tree sampler makes each possible change of a tree with the probability of its proposal times the probability of its acceptance, and does not change the posterior distribution of the splits of a tree.", "quantifier": "All tables without NaN, all targets, proper parameters and positive proposal probabilities with sum 1, all random trees (probability distributions on the reachable trees).", "why_tests_cant": "Whether a Markov chain has the right stationary distribution is a statement about all trees and all draws at once; a test only sees a few paths, and the sampled trees look plausible either way.", "anchors": ["bartpy/samplers/unconstrainedtree/treemutation.py:UnconstrainedTreeMutationSampler.sample", "bartpy/samplers/treemutation.py:TreeMutationLikihoodRatio.log_probability_ratio", "bartpy/samplers/unconstrainedtree/proposer.py:UniformMutationProposer.propose"]}
{"id": "C112", "title": "Targets that cannot be scaled are reported", "statement": "fit raises an exception for a target that is constant or contains NaN or infinities; for all other targets the predictions of a fit that returns with samples are finite numbers.", "quantifier": "All tables without NaN, all targets with entries in the extended reals or NaN, all settings with at least one tree, all draws; rows to predict without NaN and -inf.", "why_tests_cant": "NaN passes through comparisons and sums silently, so that a wrong target looks like a fit in which no proposal is accepted; that no number of sweeps and no draws ever bring a finite value back is a statement about all runs.", "anchors": ["bartpy/data.py:Target.normalize_y", "bartpy/sklearnmodel.py:SklearnModel.fit", "bartpy/samplers/sigma.py:SigmaSampler.sample", "bartpy/samplers/leafnode.py:LeafNodeSampler.sample"]}
{"id": "C113", "title": "The sign of the target does not matter", "statement": "A target with the other sign (more generally a * y + b with a < 0) is fitted as y is: with the other sign of all normal draws fit raises the same exception, or the predictions are a * f + b with f those of the fit to y, and sigma and acceptance are the same. Since the normal distribution is symmetric, the predictions have the distribution of a * f + b.", "quantifier": "All tables without NaN, all targets that are not constant, all a < 0 and b, all settings with at least one chain and one sample, all draws; all sets of predictions for the statement about distributions.", "why_tests_cant": "No two random fits are alike, so a test cannot tell a difference in sign from a difference in draws; the relation between the distributions is about all draws at once.", "anchors": ["bartpy/sklearnmodel.py:SklearnModel.fit", "bartpy/data.py:Target.normalize_y", "bartpy/samplers/leafnode.py:LeafNodeSampler.sample", "bartpy/samplers/unconstrainedtree/likihoodratio.py:log_grow_ratio"]}
{"id": "C114", "title": "Predictions do not change after they were returned or stored", "statement": "An array that predict() returns, or that is stored with a sample, keeps what it contained, whatever sweeps and predictions follow: at the end of a chain the stored arrays hold the predictions of the trees at the time when they were stored. Writing into a returned array does not influence the sampler.", "quantifier": "All tables and targets, all settings, all draws; all sequences of sweeps and calls of predict() of the model or of one of its trees, all contents written.", "why_tests_cant": "The sampler changes arrays in place to save time; whether one of them is also in the hands of a user or in the list of samples depends on the order of all operations since the array was made.", "anchors": ["bartpy/model.py:Model.predict", "bartpy/model.py:Model.refreshed_trees", "bartpy/tree.py:Tree.predict", "bartpy/samplers/modelsampler.py:ModelSampler.samples"]}
{"id": "C115", "title": "The direction of a feature does not matter", "statement": "A feature with the other sign (ascending instead of descending) is fitted as the feature is: the predictions for rows in which it has the other sign, sigma and acceptance have the same distribution.", "quantifier": "All tables without NaN, all sets of features whose sign is changed, all targets that are not constant, all settings with at least one chain and one sample, all draws; all sets of predictions.", "why_tests_cant": "No two random fits are alike, so a test cannot tell a difference between the directions from a difference in draws; the relation between the distributions is about all draws at once.", "anchors": ["bartpy/sklearnmodel.py:SklearnModel.fit", "bartpy/data.py:CovariateMatrix.random_splittable_value", "bartpy/splitcondition.py:SplitCondition", "bartpy/samplers/unconstrainedtree/likihoodratio.py:log_grow_ratio"]}
{"id": "C116", "title": "Rounding errors do not add up over the sweeps", "statement": "The target that a tree is given in a sweep is the target of the model minus the predictions of the other trees, up to a rounding error that is bounded by the size of the numbers involved and does not grow with the number of sweeps.", "quantifier": "All targets, all numbers of trees and sweeps, everything the samplers may do with the trees; binary64 arithmetic, or any arithmetic with a bounded relative error.", "why_tests_cant": "The sampler updates a running sum instead of adding up the trees; an error of 1e-16 per step is invisible in a test, and what becomes of it after many sweeps depends on all of them.", "anchors": ["bartpy/model.py:Model.refreshed_trees", "bartpy/model.py:Model.predict", "bartpy/samplers/modelsampler.py:ModelSampler.samples"]}
{"id": "C117", "title": "A fit that can return does return", "statement": "For valid settings and a target that is not constant: if the data can be fitted at all (some draws let fit return), the loops that draw again (a split value that is rejected, a kind of move that is impossible) end with probability 1, so fit returns with probability 1 unless Python's limit on nested calls is reached; with a limit of R nested calls the probability of that is at most n_chains * (n_burn + n_samples) * n_trees * R * (p_grow^R + (1 - p_grow)^R). If the data cannot be fitted, fit raises RecursionError.", "quantifier": "All tables without NaN, all targets that are not constant, all valid settings with at least one step and p_grow between 0 and 1, all limits R; uniform picks and independent kinds of move, all other draws.", "why_tests_cant": "A loop that draws until the draw is acceptable can go on for ever; that it almost never does is a statement about infinite sequences of draws, and a failure with probability 1e-280 is never seen in a test.", "anchors": ["bartpy/sklearnmodel.py:SklearnModel.fit", "bartpy/samplers/unconstrainedtree/proposer.py:UniformMutationProposer.propose", "bartpy/data.py:CovariateMatrix.random_splittable_value", "bartpy/samplers/unconstrainedtree/proposer.py:sample_split_node"]}
{"id": "C118", "title": "Scaling of the target survives rounding", "statement": "In floating point arithmetic, too, the scaled targets lie in [-0.5, 0.5], the least and the largest target become exactly -0.5 and 0.5, the order is kept (different targets may become equal), and scaling back returns each target y up to an error of 5u times the range of the targets plus u * |y|, with u = 2^-53.", "quantifier": "All targets that are not constant; binary64 without overflow and subnormal numbers, or any monotone rounding with relative error u <= 1/100 that keeps 0, 1, 1/2 and -1/2.", "why_tests_cant": "Whether a quotient of two rounded differences can leave [0, 1], or the largest value can miss 0.5 by one digit, depends on the last digits of the particular numbers; tests see a handful of them and compare with a tolerance.", "anchors": ["bartpy/data.py:Target.normalize_y", "bartpy/data.py:Target.unnormalize_y", "bartpy/data.py:Target.unnormalized_y"]}
{"id": "C119", "title": "More chains bring the predictions closer to a fixed value", "statement": "The predictions of a fit with c chains converge with probability 1, as c grows, to a function of the row, uniformly for all rows. The expected prediction for a row is the same for any number of chains, and the mean squared distance from it with c chains is that with one chain divided by c.", "quantifier": "All tables without NaN that can be fitted, all targets that are not constant, all valid settings with at least one sample, all numbers of chains, all rows without NaN and -inf; independent draws, each from a finite set of outcomes (as those of a random number generator are) with any probabilities, in which every pick and kind of move is possible.", "why_tests_cant": "The documentation says that more chains improve the quality of the samples; a limit for infinitely many chains, and a mean over all draws, cannot be observed in a test, and a fit with many chains differs from the limit anyway.", "anchors": ["bartpy/sklearnmodel.py:SklearnModel.fit", "bartpy/sklearnmodel.py:run_chain", "bartpy/sklearnmodel.py:SklearnModel._combine_chains", "bartpy/sklearnmodel.py:SklearnModel.predict"]}
{"id": "C120", "title": "The trees of the stored samples are those that the sampler made", "statement": "The trees in model_samples after a fit are, tree by tree and node by node, those of a sampler that keeps no caches, masks, links or shared objects and is given the same draws: the comparisons on the way to each node, its depth and the value of each leaf. The shares of feature_split_proportions and the depths of plot_tree_depth are the ones counted in those trees.", "quantifier": "All tables without NaN, all targets that are not constant, all settings with positive weights of both kinds of move, all draws.", "why_tests_cant": "The stored trees are copies whose nodes share objects with the trees that the sampler goes on to change; whether every stored sample is still right after the fit depends on the whole run.", "anchors": ["bartpy/tree.py:deep_copy_tree", "bartpy/node.py:deep_copy_node", "bartpy/samplers/modelsampler.py:ModelSampler.samples", "bartpy/diagnostics/features.py:feature_split_proportions", "bartpy/diagnostics/trees.py:plot_tree_depth"]}
{"id": "C121", "title": "More chains bring the feature shares closer to a fixed value", "statement": "The shares that feature_split_proportions returns for a fit with c chains converge with probability 1, as c grows: the share of a column to twice the expected number of splits by it, divided by the expected number of nodes, in the samples of one chain.", "quantifier": "All tables without NaN that can be fitted, all targets that are not constant, all valid settings with at least one sample, all columns; independent draws, each from a finite set of outcomes with any probabilities, in which every pick and kind of move is possible.", "why_tests_cant": "A limit for infinitely many chains cannot be observed; the shares of any single fit differ from it.", "anchors": ["bartpy/diagnostics/features.py:feature_split_proportions", "bartpy/sklearnmodel.py:SklearnModel.fit", "bartpy/sklearnmodel.py:SklearnModel._combine_chains"]}
{"id": "C122", "title": "The oblivious sampler accepts a proposal when the uniform draw is below its ratio", "statement": "For each proposal of the oblivious sampler there is a number such that the proposal is accepted exactly when the uniform draw is below it; in particular no proposal is rejected whatever is drawn. (False: if a leaf cannot be split, and no row in it has the value it was last compared with, the ratio of every grow is NaN and the tree never grows.)", "quantifier": "All tables without NaN, all reachable trees, all draws, all parameters (for the true part sigma, k, n_trees, p_grow, p_prune > 0, 0 < alpha < 1, beta >= 0).", "why_tests_cant": "The two infinite terms that make NaN come from different functions, appear only when a leaf has become homogeneous, and the result is a rejection like any other.", "anchors": ["bartpy/samplers/oblivioustrees/treemutation.py:UnconstrainedTreeMutationSampler.sample", "bartpy/samplers/oblivioustrees/likihoodratio.py:log_probability_split_within_node", "bartpy/samplers/oblivioustrees/proposer.py:sample_split_node", "bartpy/data.py:CovariateMatrix.proportion_of_value_in_variable"]}
{"id": "C123", "title": "In-sample and out-of-sample predictions agree with the oblivious sampler", "statement": "After a fit with the oblivious tree sampler and stored in-sample predictions, predict() and predict(X_train) are equal, and have one entry for each training row if anything was sampled.", "quantifier": "All tables without NaN and -inf, all targets, settings and draws for which the fit returns, also those in which leaves that cannot be split have been doubled.", "why_tests_cant": "predict() averages arrays that were filled leaf by leaf from row masks during the run, predict(X) evaluates the comparisons of copied trees; with the oblivious sampler leaves overlap, so that even the order in which leaves are visited matters.", "anchors": ["bartpy/sklearnmodel.py:SklearnModel.predict", "bartpy/tree.py:Tree.predict", "bartpy/samplers/oblivioustrees/proposer.py:sample_split_node", "bartpy/samplers/oblivioustrees/treemutation.py:UnconstrainedTreeMutationSampler.step", "bartpy/samplers/modelsampler.py:ModelSampler.samples"]}
{"id": "C124", "title": "With the oblivious sampler each row is in exactly one leaf", "statement": "In every tree of every stored sample of a fit with the oblivious tree sampler each row without NaN and -inf satisfies the comparisons of exactly one leaf, whose value the tree predicts. (False: a training row can be in several leaves with different values. True: it is in at least one, and the tree predicts the value of the last one in the list of leaves; two leaves with a row in common contain exactly the same rows, and the training rows in them agree in every column, apart from the first of them; every leaf contains a training row.)", "quantifier": "All tables without NaN and -inf, all targets, settings and draws for which the fit returns, all stored samples and trees, all rows without NaN and -inf.", "why_tests_cant": "The sampler makes overlapping leaves only after some leaf has become homogeneous; predictions look normal, since a later leaf silently overwrites an earlier one.", "anchors": ["bartpy/samplers/oblivioustrees/proposer.py:sample_split_node", "bartpy/tree.py:Tree.predict", "bartpy/tree.py:Tree._out_of_sample_predict"]}
{"id": "C125", "title": "Trees of the oblivious sampler are complete", "statement": "In every tree of every stored sample of a fit with the oblivious tree sampler all leaves have the same depth d, there are 2^d leaves and 2^(d+1) - 1 nodes. (So that there can be more leaves than rows.)", "quantifier": "All tables without NaN and -inf, all targets, settings and draws for which the fit returns, all stored samples and trees.", "why_tests_cant": "Every step replaces all leaves, or all prunable nodes, one after the other in a list that is being changed; that no leaf is missed or treated twice depends on the order in all possible trees.", "anchors": ["bartpy/samplers/oblivioustrees/proposer.py:grow_mutations", "bartpy/samplers/oblivioustrees/proposer.py:prune_mutations", "bartpy/samplers/oblivioustrees/treemutation.py:UnconstrainedTreeMutationSampler.step", "bartpy/tree.py:mutate"]}
{"id": "C126", "title": "What can go wrong in a fit with the oblivious sampler", "statement": "Once the model has been built, a fit with the oblivious tree sampler raises an exception only for n_chains = 0 (IndexError), thin = 0 or a weight of 0 of a kind of move (ZeroDivisionError), negative parameters of the prior of sigma (ValueError), or a table in which no column has two values after the first row (AttributeError). It does raise these for n_chains = 0, for thin = 0, and for such a table if the first move that is drawn is to grow. For valid settings and a target that is not constant there are draws for which it returns, also for such a table, to which the default sampler can never be fitted.", "quantifier": "All tables without NaN and -inf, all targets, settings and draws.", "why_tests_cant": "Which leaves can be split, and which attribute is missing on which node, depends on the whole run.", "anchors": ["bartpy/sklearnmodel.py:SklearnModel.fit", "bartpy/samplers/oblivioustrees/treemutation.py:UnconstrainedTreeMutationSampler.step", "bartpy/samplers/oblivioustrees/likihoodratio.py:log_probability_split_within_node", "bartpy/samplers/oblivioustrees/proposer.py:UniformMutationProposer.propose"]}
{"id": "C127", "title": "The oblivious sampler is the layer-by-layer sampler", "statement": "A fit with the oblivious tree sampler does exactly what a straightforward sampler does that keeps for each tree only the list of its growths (what became of each leaf, from left to right) and the leaf values, and computes everything else from the training data: with the same draws it raises the same exception or keeps samples with the same leaves (comparisons and values), predictions, sigma and acceptance shares, and predict gives the same numbers.", "quantifier": "All tables without NaN and -inf with at least one column, all targets that are not constant, all settings with p_grow, p_prune, thin != 0 and at least one chain, all draws.", "why_tests_cant": "The code changes a linked structure of nodes with masks, counters, cached sums and a cached prediction, one mutation after the other in a list of nodes that is being changed; whether leaf steps and later growths meet the leaves in the right order, with the right rows, depends on the whole history.", "anchors": ["bartpy/samplers/oblivioustrees/treemutation.py:UnconstrainedTreeMutationSampler.step", "bartpy/samplers/oblivioustrees/proposer.py:grow_mutations", "bartpy/samplers/oblivioustrees/proposer.py:prune_mutations", "bartpy/samplers/oblivioustrees/proposer.py:sample_split_node", "bartpy/samplers/oblivioustrees/likihoodratio.py:UniformTreeMutationLikihoodRatio", "bartpy/samplers/schedule.py:SampleSchedule.steps", "bartpy/model.py:Model.refreshed_trees", "bartpy/sklearnmodel.py:SklearnModel.fit"]}
{"id": "C128", "title": "Units of the target and number of chains with the oblivious sampler", "statement": "With the oblivious tree sampler and the same draws: for a target a*y + b with a > 0 fit raises the same exception, or keeps samples with the same trees, leaf values and sigma, and predict gives a*f + b where f is the prediction for y. A fit with several chains returns exactly when the fits with one chain each do that use the draws of one of the chains, and its predictions are the averages of theirs.", "quantifier": "All tables without NaN and -inf with at least one column, all targets that are not constant, all a > 0 and b, all settings with p_grow, p_prune, thin != 0, at least one chain and one sample, all draws, all tables to predict for without NaN and -inf.", "why_tests_cant": "Two runs of thousands of random steps have to be compared number by number; any absolute constant in ratios, leaf values or sigma would spoil it.", "anchors": ["bartpy/data.py:Target.normalize_y", "bartpy/data.py:Target.unnormalize_y", "bartpy/sklearnmodel.py:SklearnModel._combine_chains", "bartpy/sklearnmodel.py:SklearnModel.predict", "bartpy/samplers/oblivioustrees/treemutation.py:UnconstrainedTreeMutationSampler.step"]}
{"id": "C129", "title": "Targets that do not belong to the table are rejected", "statement": "fit(X, y) raises an exception if y has another number of entries than X has rows, or if y has rows and columns. (False if n_trees = 0 or nothing is sampled. True otherwise with the default tree sampler: IndexError as soon as a grow move is drawn, or at once if y has rows and columns, even if it is a single column of the right length; ValueError if X or y is empty.)", "quantifier": "All tables, all targets of any length, or with any number of rows and columns, all settings, all draws.", "why_tests_cant": "Nothing in fit compares the lengths; that the run fails depends on which arrays are indexed with which masks before anything is stored, for all settings.", "anchors": ["bartpy/data.py:Data.__init__", "bartpy/data.py:CovariateMatrix.get_column", "bartpy/sklearnmodel.py:SklearnModel.fit", "bartpy/sklearnmodel.py:SklearnModel._construct_model", "bartpy/tree.py:Tree.predict", "bartpy/samplers/unconstrainedtree/proposer.py:UniformMutationProposer.propose"]}
{"id": "C130", "title": "Feature shares and depths with the oblivious sampler", "statement": "After a fit with the oblivious tree sampler, feature_split_proportions gives for each column twice the number of splits by it divided by the number of nodes in the trees of the stored samples, as with the default sampler. (False: a leaf that cannot be split is doubled, and each doubling counts again for the column of the last comparison above it. The share is twice the number of splits by the column plus doublings of leaves below a comparison with it, divided by the number of nodes.) plot_tree_depth summarizes for each sample the depths of trees with 2^e nodes at each depth e.", "quantifier": "All tables without NaN and -inf with at least one column, all targets that are not constant, all settings with p_grow, p_prune, thin != 0, all draws for which the fit returns, all lists of columns.", "why_tests_cant": "Shares look plausible and sum to less than 1 either way; which nodes are doublings is nowhere recorded and depends on the whole run.", "anchors": ["bartpy/diagnostics/features.py:feature_split_proportions", "bartpy/diagnostics/trees.py:plot_tree_depth", "bartpy/samplers/oblivioustrees/proposer.py:sample_split_node", "bartpy/splitcondition.py:CombinedCondition.__init__"]}
{"id": "C131", "title": "Units of the features, constant columns and the sign of the target with the oblivious sampler", "statement": "With the oblivious tree sampler and the same draws: if the columns are replaced by strictly increasing functions of them and further columns are added that are constant in the training data, fit raises the same exception, or the fits agree in the predictions for the training data and for all data recoded in the same way, in sigma and in the acceptance shares. For a target a*y + b with a < 0 and the other sign of all normal draws, every prediction f becomes a*f + b.", "quantifier": "All tables without NaN and -inf with at least one column, all strictly increasing functions, any number and position of further columns, all targets that are not constant, all a < 0 and b, all settings with p_grow, p_prune, thin != 0, at least one chain and one sample, all draws.", "why_tests_cant": "Two runs of thousands of random steps have to agree for all such changes of the data; a comparison, a stored maximum or a cached flag that depends on more than the order of the values would show only in rare runs.", "anchors": ["bartpy/data.py:CovariateMatrix", "bartpy/samplers/oblivioustrees/proposer.py:sample_split_node", "bartpy/samplers/oblivioustrees/likihoodratio.py:UniformTreeMutationLikihoodRatio", "bartpy/samplers/leafnode.py:LeafNodeSampler.sample", "bartpy/sklearnmodel.py:SklearnModel.predict"]}
{"id": "C132", "title": "The order of the columns does not matter to the oblivious sampler", "statement": "If the columns of X are given to fit with the oblivious tree sampler in another order, the predictions for the training data and for all data with the columns in that order have the same distribution, and so have sigma and the acceptance shares: there is a one-to-one correspondence between the random choices, all equally likely, for which both fits raise the same exception or agree.", "quantifier": "All tables without NaN and -inf with at least one column, all orders, all targets that are not constant, all settings with p_grow, p_prune, thin != 0, at least one chain and one sample, all draws.", "why_tests_cant": "A statement about the distribution of runs of thousands of steps; a preference for the first column would show only as a small shift of averages.", "anchors": ["bartpy/samplers/oblivioustrees/proposer.py:sample_split_condition", "bartpy/data.py:CovariateMatrix.random_splittable_variable", "bartpy/data.py:CovariateMatrix.splittable_variables", "bartpy/sklearnmodel.py:SklearnModel.fit"]}
{"id": "C133", "title": "The order of the training rows does not matter to the oblivious sampler", "statement": "If the rows of X and y are given to fit with the oblivious tree sampler in another order, the predictions have the same distribution. (False if a column has repeated values: for X = 1, 2, 2 a fit whose first move is to grow always raises AttributeError, for X = 2, 1, 2 it can return, because the first row is skipped when the values of a column are counted. True if no column has the same value in two rows.)", "quantifier": "All tables without NaN and -inf with at least one column, all orders of the rows, all targets that are not constant, all settings with p_grow, p_prune, thin != 0, at least one chain and one sample, all draws.", "why_tests_cant": "A statement about the distribution of runs of thousands of steps, for all orders; the exception depends on a single row being first.", "anchors": ["bartpy/data.py:is_not_constant", "bartpy/data.py:CovariateMatrix.random_splittable_value", "bartpy/samplers/oblivioustrees/proposer.py:sample_split_node", "bartpy/sklearnmodel.py:SklearnModel.fit"]}
{"id": "C134", "title": "The probability that a fit with the oblivious sampler returns", "statement": "For valid settings and a target that is not constant, a fit with the oblivious tree sampler returns with probability 1 if some column has two different values after the first row: the loop that draws a split value again when it is rejected ends with probability 1, and nothing else is repeated, so Python's limit on nested calls is never an issue. Otherwise it returns with probability (1 - p_grow)^(n_chains * (n_burn + n_samples) * n_trees), the probability that no move is to grow, and raises AttributeError if one is.", "quantifier": "All tables without NaN and -inf with at least one column, all targets that are not constant, all valid settings with p_grow between 0 and 1; uniform picks and independent kinds of move, all other draws.", "why_tests_cant": "A loop that draws until the draw is acceptable can go on for ever; that it almost never does is a statement about infinite sequences of draws.", "anchors": ["bartpy/sklearnmodel.py:SklearnModel.fit", "bartpy/samplers/oblivioustrees/proposer.py:UniformMutationProposer.propose", "bartpy/data.py:CovariateMatrix.random_splittable_value", "bartpy/samplers/oblivioustrees/proposer.py:sample_split_node", "bartpy/samplers/oblivioustrees/likihoodratio.py:log_probability_split_within_node"]}
{"id": "C135", "title": "The oblivious sampler takes no growth back while everything else is fixed", "statement": "While the target of a tree, sigma and the settings stay the same, the oblivious tree sampler never takes back a growth: once a growth was accepted, the leaves at a later time are those at an earlier time, split or doubled further. A tree whose leaves come back to what they were has not changed in between. A step reports a change if and only if the leaves change, and then their number is doubled or halved.", "quantifier": "All tables without NaN, all targets, all trees that the oblivious sampler can arrive at, all positive p_grow, p_prune, k and sigma, alpha between 0 and 1, beta >= 0, any number of steps of tree and leaf sampler, all draws.", "why_tests_cant": "A sampler of a posterior must be able to return to any tree; that it never does is a statement about all sequences of proposals, and a test in which the tree does not shrink again shows nothing.", "anchors": ["bartpy/samplers/oblivioustrees/treemutation.py:UnconstrainedTreeMutationSampler.sample", "bartpy/samplers/oblivioustrees/likihoodratio.py:UniformTreeMutationLikihoodRatio", "bartpy/samplers/oblivioustrees/proposer.py:UniformMutationProposer.propose"]}
{"id": "C136", "title": "The size of oblivious trees is bounded by the training data", "statement": "A tree in a sample of a fit with the oblivious tree sampler has no more leaves than there are rows in the training data, or at least not more than some number that depends only on the training data. (False: with the rows 0, 1, 2, the target 0, 1, 2, one tree and any admissible settings there are draws for which sample number i has a tree with 2^i leaves, for all i: leaves that cannot be split are doubled again and again. True: there are at most 2^(n_burn + n_samples) leaves.)", "quantifier": "All tables without NaN and -inf with at least one column, all targets that are not constant, all settings with p_grow, p_prune, thin != 0 and at least one chain, all draws.", "why_tests_cant": "With usual draws trees are small; memory use that doubles with every accepted growth shows only in rare runs with small sigma.", "anchors": ["bartpy/samplers/oblivioustrees/proposer.py:sample_split_node", "bartpy/samplers/oblivioustrees/proposer.py:UniformMutationProposer.propose", "bartpy/samplers/oblivioustrees/likihoodratio.py:log_probability_split_within_node", "bartpy/samplers/oblivioustrees/likihoodratio.py:UniformTreeMutationLikihoodRatio.log_likihood_ratio", "bartpy/sklearnmodel.py:SklearnModel.fit"]}
{"id": "C137", "title": "Oblivious sampler: the transition ratio is the ratio of the probabilities of proposals", "statement": "In the oblivious tree sampler a proposal is made with probability 1. A growth, which says for each leaf by which column and at which value it is split, is proposed with probability p_grow times the product over the leaves of 1 / (number of columns that the leaf can be split by) times the probability of the cut value (the value of a random row, drawn again if it is the largest); leaves that cannot be split are doubled with certainty. The removal of the last growth is proposed with probability p_prune, and nothing else is proposed. The transition ratio that enters the acceptance of a proposal is the probability of the reverse proposal in the changed tree divided by the probability of the proposal. (The last sentence is false: for the first growth over the rows 0, 1, 2 the true ratio is 2/3 of the one used.)", "quantifier": "All tables without NaN that can be split, all trees that the oblivious sampler can arrive at, all targets, all positive p_grow and p_prune with sum 1, all growths and removals that can be proposed.", "why_tests_cant": "Probabilities of proposals, including the unbounded number of repetitions inside a call, cannot be read off from test runs; a wrong ratio only shifts the frequencies of trees.", "anchors": ["bartpy/samplers/oblivioustrees/likihoodratio.py:UniformTreeMutationLikihoodRatio.log_transition_ratio", "bartpy/samplers/oblivioustrees/proposer.py:UniformMutationProposer.propose", "bartpy/samplers/oblivioustrees/proposer.py:sample_split_node", "bartpy/data.py:CovariateMatrix.random_splittable_value"]}
{"id": "C138", "title": "The posterior distribution of oblivious trees is left unchanged", "statement": "While target, sigma and settings stay the same, a step of the oblivious tree sampler makes each possible change of a tree (a growth of all leaves, or the removal of the last growth) with the probability of its proposal times the probability of its acceptance, and does not change the posterior distribution of the leaves of a tree. (The second half is false: a distribution of trees is left unchanged only if no tree that has positive probability can change at all.)", "quantifier": "All tables without NaN that can be split, all targets, proper parameters and positive proposal probabilities with sum 1, all random trees (probability distributions on the trees that the oblivious sampler can arrive at).", "why_tests_cant": "Whether a Markov chain has the right stationary distribution is a statement about all trees and all draws at once; a test only sees a few paths, and the sampled trees look plausible either way.", "anchors": ["bartpy/samplers/oblivioustrees/treemutation.py:UnconstrainedTreeMutationSampler.sample", "bartpy/samplers/oblivioustrees/treemutation.py:UnconstrainedTreeMutationSampler.step", "bartpy/samplers/oblivioustrees/likihoodratio.py:UniformTreeMutationLikihoodRatio", "bartpy/samplers/oblivioustrees/proposer.py:UniformMutationProposer.propose"]}
{"id": "C139", "title": "More chains of the oblivious sampler: predictions converge", "statement": "With the oblivious tree sampler, if the draws of the chains are independent, the predictions of fits with more and more chains converge with probability 1, for all rows at the same time and uniformly, to a fixed function of the row: the expected prediction of a single chain. For any number of chains the expected prediction is the same, and the mean squared distance from it with c chains is that with one chain divided by c.", "quantifier": "All training tables without NaN and -inf in which some column has two different values after the first row, all targets that are not constant, valid settings with at least one sample, distributions on finite sets of draws in which every pick and every kind of move is possible, all rows without NaN and -inf to predict.", "why_tests_cant": "It is a statement about infinitely many chains and about probabilities; a test can only compare a few fits.", "anchors": ["bartpy/sklearnmodel.py:SklearnModel.fit", "bartpy/sklearnmodel.py:SklearnModel._combine_chains", "bartpy/samplers/modelsampler.py:ModelSampler.samples", "bartpy/samplers/oblivioustrees/treemutation.py:UnconstrainedTreeMutationSampler.step"]}
{"id": "C140", "title": "More chains of the oblivious sampler: column shares converge", "statement": "With the oblivious tree sampler, if the draws of the chains are independent, the share that feature_split_proportions returns for a column is, over the chains, the sum of what is counted for the column divided by the sum of the numbers of nodes, and with more and more chains it converges with probability 1 to the expectation of the one for a single chain divided by the expectation of the other.", "quantifier": "As for the predictions (C139); all columns.", "why_tests_cant": "It is a statement about infinitely many chains and about probabilities; a test can only compare a few fits.", "anchors": ["bartpy/diagnostics/features.py:feature_split_proportions", "bartpy/sklearnmodel.py:SklearnModel.fit", "bartpy/sklearnmodel.py:SklearnModel._combine_chains", "bartpy/samplers/oblivioustrees/treemutation.py:UnconstrainedTreeMutationSampler.step"]}
{"id": "C141", "title": "Oblivious sampler: the fitted model is a mean of sums of decision trees, constant between training entries", "statement": "After a fit with the oblivious tree sampler there are lists of n_trees decision trees, one list for each stored sample, such that the prediction for a row is the mean over the lists of the sum of the values of the trees, on the original scale. Each comparison in them is with a training entry of the same column that is not the largest one there. So the prediction for a row depends on this row alone, rows that compare in the same way with all these entries get the same prediction, and beyond the smallest and largest entry of a column predictions are constant in it.", "quantifier": "All training tables without NaN and -inf, all targets that are not constant, all settings with at least one sample, all draws for which the fit returns, all rows without NaN and -inf to predict.", "why_tests_cant": "It speaks about all rows that can be passed to predict, and about fits in which leaves are doubled any number of times, so that a row is in many leaves of a tree.", "anchors": ["bartpy/sklearnmodel.py:SklearnModel.predict", "bartpy/tree.py:Tree._out_of_sample_predict", "bartpy/samplers/oblivioustrees/treemutation.py:UnconstrainedTreeMutationSampler.step", "bartpy/samplers/oblivioustrees/proposer.py:UniformMutationProposer.propose"]}
{"id": "C142", "title": "Oblivious sampler: burn-in, thinning and the number of samples only select samples", "statement": "With the oblivious tree sampler and the same draws, a fit with one chain keeps a selection of the samples of a fit with no burn-in, no thinning and at least as many sweeps: n_burn of them are left out, and of the following n_samples those are kept whose number is a multiple of 1 / thin. This holds for the trees, sigma, the predictions for all rows, the stored predictions and the acceptance shares. If the longer fit returns then so does the shorter one, and with equally many sweeps both raise the same exception or both return.", "quantifier": "All training tables without NaN and -inf, all targets that are not constant, all settings with thin not 0 and one chain, all draws, all rows without NaN and -inf to predict.", "why_tests_cant": "Two runs with different settings have to be compared draw by draw, for every sequence of draws.", "anchors": ["bartpy/samplers/modelsampler.py:ModelSampler.samples", "bartpy/sklearnmodel.py:SklearnModel.fit", "bartpy/samplers/oblivioustrees/treemutation.py:UnconstrainedTreeMutationSampler.step"]}
{"id": "C143", "title": "SelectNullDistributionThreshold: the percentile sets the false positive rate", "statement": "If the target is in random order, so that no column says anything about it, then SelectNullDistributionThreshold selects a column with a probability of about 1 - percentile at most: with the default percentile 0.95 and many permutations about 5 %, and with m + 1 permutations at most 1 - d / (m + 1) for each whole number d up to percentile times m.", "quantifier": "All models, training tables and targets, all numbers of permutations, all finite distributions of the permutations and draws of the runs, which are independent.", "why_tests_cant": "It is about probabilities over all permutations and draws; a test sees a few seeds.", "anchors": ["bartpy/features/featureselection.py:SelectNullDistributionThreshold.fit", "bartpy/diagnostics/features.py:local_thresholds", "bartpy/diagnostics/features.py:null_feature_split_proportions_distribution", "bartpy/diagnostics/features.py:kept_features"]}
{"id": "C144", "title": "The same number of copies of every column has no effect", "statement": "If every column of X is present k times in the training data (in any order) instead of once, and likewise in the data to predict, then the distribution of everything that fit and predict show is the same: predictions for new data and for the training data, samples of sigma, acceptance trace, exceptions. More precisely there is a one-to-one correspondence between the random draws that only exchanges the results of random choices against equally likely ones, under which the two fits agree. If one column is present more often than another, this is not so.", "quantifier": "All training tables, targets, settings, positive numbers k and orders of the copies, all draws and all new data.", "why_tests_cant": "A test can compare a few seeds only, and the two fits differ for the same seed; equality of distributions needs all draws.", "anchors": ["bartpy/sklearnmodel.py:SklearnModel.fit", "bartpy/samplers/unconstrainedtree/proposer.py:uniformly_sample_grow_mutation", "bartpy/samplers/unconstrainedtree/likihoodratio.py:UniformTreeMutationLikihoodRatio", "bartpy/data.py:CovariateMatrix.random_splittable_variable", "bartpy/data.py:CovariateMatrix.splittable_variables"]}
{"id": "C145", "title": "Oblivious sampler: the same number of copies of every column has no effect", "statement": "With the oblivious tree sampler too, the distribution of everything that fit and predict show (predictions for new data and for the training data, samples of sigma, acceptance trace, exceptions) is the same if every column of X is present k times instead of once, in any order, in the training data and in the data to predict. There is a one-to-one correspondence between the random draws that only exchanges the results of random choices against equally likely ones, under which the two fits agree. If one column is present more often than another, this is not so.", "quantifier": "All training tables, targets, settings, positive numbers k and orders of the copies, all draws and all new data.", "why_tests_cant": "A test can compare a few seeds only, and the two fits differ for the same seed; equality of distributions needs all draws.", "anchors": ["bartpy/sklearnmodel.py:SklearnModel.fit", "bartpy/samplers/oblivioustrees/proposer.py:sample_split_condition", "bartpy/samplers/oblivioustrees/likihoodratio.py:UniformTreeMutationLikihoodRatio", "bartpy/data.py:CovariateMatrix.random_splittable_variable", "bartpy/data.py:CovariateMatrix.splittable_variables"]}
{"id": "C146", "title": "Copies of a column divide its share of the splits", "statement": "If every column of X is present k times, then the shares that feature_split_proportions gives for the k copies of a column are alike: they have the same distribution, they add up to a share with the distribution of the one that the column has in a fit to X without copies, and so the expected share of each copy is the expected share of the column divided by k. Two equal columns have shares with the same distribution whatever the other columns are.", "quantifier": "All training tables, targets, settings, positive numbers k and orders of the copies, all draws; uniform random choices, all other draws.", "why_tests_cant": "Shares are random and differ between the copies in every run; a test sees a few runs, the distribution is about all draws.", "anchors": ["bartpy/diagnostics/features.py:feature_split_proportions", "bartpy/sklearnmodel.py:SklearnModel.fit", "bartpy/samplers/unconstrainedtree/proposer.py:uniformly_sample_grow_mutation", "bartpy/samplers/unconstrainedtree/likihoodratio.py:UniformTreeMutationLikihoodRatio", "bartpy/data.py:CovariateMatrix.random_splittable_variable"]}
{"id": "C147", "title": "Oblivious sampler: copies of a column divide its share of the splits", "statement": "With the oblivious tree sampler too, if every column of X is present k times, then the shares that feature_split_proportions gives for the k copies of a column have the same distribution, they add up to a share with the distribution of the one that the column has in a fit to X without copies, and the expected share of each copy is the expected share of the column divided by k. Two equal columns have shares with the same distribution whatever the other columns are.", "quantifier": "All training tables, targets, settings, positive numbers k and orders of the copies, all draws; uniform random choices, all other draws.", "why_tests_cant": "Shares are random and differ between the copies in every run; a test sees a few runs, the distribution is about all draws.", "anchors": ["bartpy/diagnostics/features.py:feature_split_proportions", "bartpy/sklearnmodel.py:SklearnModel.fit", "bartpy/samplers/oblivioustrees/proposer.py:sample_split_condition", "bartpy/samplers/oblivioustrees/likihoodratio.py:UniformTreeMutationLikihoodRatio", "bartpy/data.py:CovariateMatrix.random_splittable_variable"]}
{"id": "C148", "title": "Feature shares do not depend on the order of the columns or on the units and sign of the target", "statement": "The shares that feature_split_proportions gives belong to the columns and not to their positions: for X with its columns in another order the table of shares has the same distribution, with the entries in the new order. Replacing the target y by a * y + b with a > 0 leaves every share unchanged for the same random draws; with a < 0 every share is unchanged if the normal draws have the other sign, so that its distribution is unchanged too. Where one fit raises an exception the other raises the same one. This holds for the default sampler and for the oblivious tree sampler.", "quantifier": "All training tables without NaN (finite entries with the oblivious sampler), non-constant targets, orders of the columns, numbers a and b with a not 0, settings, all draws; uniform random choices, all other draws.", "why_tests_cant": "A test with a seed gives other shares after exchanging two columns, since the same random numbers pick other columns; that nothing but the names changed is a statement about all draws.", "anchors": ["bartpy/diagnostics/features.py:feature_split_proportions", "bartpy/sklearnmodel.py:SklearnModel.fit", "bartpy/data.py:Target.normalize_y", "bartpy/data.py:CovariateMatrix.random_splittable_variable", "bartpy/samplers/oblivioustrees/proposer.py:sample_split_condition"]}
{"id": "C149", "title": "A constant column gets no feature share and takes none from the others", "statement": "A column that is constant in the training data has the share 0 in feature_split_proportions after every fit. Putting constant columns among the columns of X, and replacing columns by strictly increasing functions of them (other units), leaves the share of every column as it was for the same random draws, or both fits raise the same exception. This holds for the default sampler and for the oblivious tree sampler.", "quantifier": "All training tables without NaN (finite entries with the oblivious sampler), numbers, values and positions of constant columns, strictly increasing functions, non-constant targets, settings, all draws.", "why_tests_cant": "That no sequence of proposals ever splits a constant column is a statement about all draws and all states of the trees; tests look at the shares of a few fits.", "anchors": ["bartpy/diagnostics/features.py:feature_split_proportions", "bartpy/sklearnmodel.py:SklearnModel.fit", "bartpy/data.py:CovariateMatrix.splittable_variables", "bartpy/data.py:CovariateMatrix.random_splittable_value", "bartpy/samplers/oblivioustrees/proposer.py:sample_split_condition"]}
{"id": "C150", "title": "Feature shares do not depend on the direction of columns without repeated values", "statement": "If no two training rows have the same value in certain columns, then replacing these columns by their negatives does not change the distribution of the shares that feature_split_proportions gives for the columns: for every choice of the random draws there are corresponding, equally likely draws with which the fit to the changed table gives the same share to each column, or both fits raise an exception.", "quantifier": "All training tables without NaN, sets of columns without repeated values, non-constant targets, settings, all draws; uniform random choices, normal numbers from any distribution with finitely many values, all other draws.", "why_tests_cant": "With a fixed seed the shares differ after the change, since the same random numbers give other cuts; the equality is one of distributions over all draws.", "anchors": ["bartpy/diagnostics/features.py:feature_split_proportions", "bartpy/sklearnmodel.py:SklearnModel.fit", "bartpy/data.py:CovariateMatrix.random_splittable_value", "bartpy/split.py:SplitCondition"]}
{"id": "C151", "title": "Residual models follow the units of the target", "statement": "Let the target of a ResidualBART or OLS model be given in other units, a * y + b with a > 0, and let the estimator whose residuals are modelled follow these units. With the same random draws the fit raises the same exception or both succeed; then every prediction predict(X) is a * f + b, with f the prediction of the model fitted to y, and the residuals for a given target are multiplied by a.", "quantifier": "All training tables, targets, a > 0, b, settings, draws, data to predict, and all base estimators that follow the units.", "why_tests_cant": "Tests would have to compare fits for all units, tables, base estimators and draws; rounding hides small errors, such as adding the offset b twice, once in the base prediction and once in the BART part.", "anchors": ["bartpy/extensions/baseestimator.py:ResidualBART.fit", "bartpy/extensions/baseestimator.py:ResidualBART.predict", "bartpy/extensions/ols.py:OLS.fit", "bartpy/extensions/ols.py:OLS.predict", "bartpy/sklearnmodel.py:SklearnModel.residuals"]}
{"id": "C152", "title": "Residual models do not depend on increasing transformations of the features", "statement": "Let columns be replaced by strictly increasing functions of them, in the training data and in the data to predict, and let the predictions of the estimator whose residuals are modelled not change then (as for trees, or for a linear regression with intercept if the functions are linear). With the same random draws the predictions and the residuals for a given target of the ResidualBART or OLS model do not change.", "quantifier": "All training tables, targets, strictly increasing functions, settings, draws, data to predict, and all base estimators that ignore the replacement.", "why_tests_cant": "A quantification over all increasing functions, base estimators and draws.", "anchors": ["bartpy/extensions/baseestimator.py:ResidualBART.fit", "bartpy/extensions/baseestimator.py:ResidualBART.predict", "bartpy/extensions/ols.py:OLS.fit", "bartpy/extensions/ols.py:OLS.predict"]}
{"id": "C153", "title": "Feature shares do not depend on the order of training rows without repeated values", "statement": "If no column has the same value in two training rows, then putting the training rows (and their targets) into another order does not change the distribution of the shares that feature_split_proportions gives for the columns: there is a one-to-one correspondence of equally likely draws such that both fits give each column the same share or raise the same exception. This holds for the default and for the oblivious tree sampler.", "quantifier": "All training tables without NaN and without repeated values in a column, non-constant targets, orders of the rows, settings, all draws; uniform random choices, all other draws.", "why_tests_cant": "With a fixed seed the shares differ after a change of the order; the equality is one of distributions over all draws.", "anchors": ["bartpy/diagnostics/features.py:feature_split_proportions", "bartpy/sklearnmodel.py:SklearnModel.fit", "bartpy/data.py:CovariateMatrix.random_splittable_value", "bartpy/data.py:is_not_constant"]}
{"id": "C154", "title": "Residual models do not depend on the order of the columns", "statement": "Let the columns of a ResidualBART or OLS model be put into another order, in the training data and in the data to predict, and let the predictions of the estimator whose residuals are modelled not depend on this order and its residuals not be constant. Then the distribution of the predictions does not change: there is a one-to-one correspondence of equally likely draws such that both fits raise the same exception or have the same predictions and the same residuals for a given target.", "quantifier": "All training tables without NaN, targets, orders of the columns, settings, draws, data to predict, and all base estimators that ignore the order.", "why_tests_cant": "With a fixed seed the predictions differ after a change of the order; the equality is one of distributions over all draws, for all base estimators.", "anchors": ["bartpy/extensions/baseestimator.py:ResidualBART.fit", "bartpy/extensions/baseestimator.py:ResidualBART.predict", "bartpy/extensions/ols.py:OLS.fit", "bartpy/extensions/ols.py:OLS.predict"]}
{"id": "C155", "title": "The global threshold is the same for all features and no less strict than the local one", "statement": "global_thresholds gives all features the same threshold, namely the given percentile of the largest null share of any feature in each permuted model; it is at least the threshold that local_thresholds gives any feature for the same percentile.", "quantifier": "All null distributions with equally many values, at least one, for each of at least one feature, and all percentiles from 0 to 100.", "why_tests_cant": "The comparison of the two kinds of thresholds is over all null distributions and percentiles.", "anchors": ["bartpy/diagnostics/features.py:global_thresholds", "bartpy/diagnostics/features.py:local_thresholds"]}
{"id": "C156", "title": "A higher percentile never selects more features", "statement": "If SelectNullDistributionThreshold with the method local can be fitted and has a support mask for some percentile, then with a higher percentile (up to 100) and the same draws it can be fitted too, and every feature in its mask is in the mask for the lower percentile. Likewise kept_features with the local_thresholds of a higher percentile returns a part of what it returns for the lower one, and SelectSplitProportionThreshold with a higher threshold selects no other features.", "quantifier": "All models, training data, numbers of permutations, permutations, draws, null distributions, pairs of percentiles.", "why_tests_cant": "It is a comparison of two runs for all null distributions, pairs of percentiles and draws.", "anchors": ["bartpy/features/featureselection.py:SelectNullDistributionThreshold.fit", "bartpy/features/featureselection.py:SelectSplitProportionThreshold._get_support_mask", "bartpy/diagnostics/features.py:local_thresholds", "bartpy/diagnostics/features.py:kept_features"]}
