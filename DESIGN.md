# Formal model of bartpy in Lean 4: design

## Layout

- `Verif/Model/*` models the Python code function by function; every definition cites file and lines of /repo.
- `Verif/Spec/*` holds small specifications that do not refer to how the code works: what a partition of rows is, what a decision
  tree computes, what a history of a data object, of a tree, of a model is, Gaussian and inverse gamma posteriors.
- `Verif/Proofs/*` holds lemmas and invariants.
- `Verif/Props/*` holds the property theorems (named after the property id), each with an example that meets its hypotheses.
- `properties.jsonl` lists the properties, `MANIFEST.json` the theorems per property, `seeded/LOG.jsonl` the wrong versions of the model
  on which the theorems were tried.

A property that is false of the code has the status `partial`: the theorems `..._refuted` prove the negation (for a witness, or for
all inputs of some kind), and the theorems `..._partial` prove the strongest version found that holds, usually the exact value or the
exact condition. No property is `partial` for another reason.

## How Python is represented

- **Exceptions** are values: functions return `Except PyErr α`. Where the code catches an exception the model matches on it.
  After an exception the partly changed objects are not modelled, unless the code goes on with them.
- **Random numbers** are inputs. `Rand K` holds the lists of draws of each kind that a run still has (moves, indices for
  `np.random.choice`, uniforms, normals, gammas); every theorem quantifies over all of them. A draw from a list is an index into
  it. Laws of draws occur only where a property is about a law (C07, C08, C28, C35, C36); there the law of numpy's function is a hypothesis.
  `Model/Generator.lean` models where draws come from: the global generator of numpy and the sampler objects that hold batches of
  draws and are shared by all models of a process (C84, C85).
- **Loops that need not end** (the rejection loop of `random_splittable_value`, the recursion in `propose`) consume draws; the error
  `outOfDraws` says that the list of draws was used up while the loop was still running. `recursionError` stands for recursion without end.
- **Numbers.** Target and leaf values are elements of an arbitrary linearly ordered field `K`; feature values and results of
  `log`, `sqrt`, `power`, division are `Fl K`: NaN, -inf, finite, +inf, with the comparisons and the arithmetic of IEEE 754, but
  without rounding, overflow and signed zeros. The functions log, sqrt, power are a parameter (`MathFns K`): theorems that do not depend on
  them hold for any version; the others use `Model/RealFns.lean`, the real functions. The examples are computed on the rationals with
  a stand-in for these functions, or are about the reals.
- **Objects.** Identity matters for `mutate` (`list.remove`, relinking of child pointers) and for sharing of data objects, so nodes
  and data objects are numbered and live in a heap. Each tree has its own heap: in the code each tree starts from a deep copy of the
  data and never shares objects with another tree. The copies stored as samples are in the same heap as the live tree, since in the code
  their child links lead to objects of the live tree (C46, C69).
- **Caches** (`_unique_columns`, `_max_values`, `_splittable_variables`, `_summed_y`, `Tree.cache_up_to_date`, ...) are fields; queries
  return the changed object. C02 shows that they cannot be observed, C22 where they can.
- **Generators.** `SampleSchedule.steps` is modelled as a generator object with late-bound variables (`Model/Schedule.lean`); C40
  shows that running it is the sweep that the rest of the model uses, C41 what happens when its steps are collected first.
- **Attributes** that do not exist are looked up in the list of attributes of the class (C63, C93).
- **Estimators** have settings and fitted state (`SkModel`); `SkObj` also distinguishes the attributes from what `__init__` built out
  of them (C81, C82). Estimators of other libraries are arbitrary `fit`/`predict` functions on objects with identity (C64, C77, C82, C83).

## Histories

- `Spec.ReachableTree X t`: `t` arises from a fresh tree by any sequence of legal calls of the public operations, proposals (applied or not), steps
  of the tree sampler and of the leaf sampler, with any parameters and draws, and copies for storage.
- `Spec.ReachableModel X m`: `m` arises from the model that `Model.__init__` builds by any number of sweeps, predictions, residuals and copies; both move
  probabilities are nonzero. `Spec.DrawRun` consists of sweeps and copies only and keeps track of the draws.
- `Spec.Show xs Ms`: the stored samples `xs`, read now, have the content of the models `Ms`.
- The main invariant (`Proofs/Shape.lean`, `Proofs/TreeOps.lean`): the nodes of a tree are those of a binary tree (`Shape`) in the heap, each
  node's mask is the conjunction of the conditions on its path, depths count the path, data are restrictions of the training data,
  caches agree with what they cache.
- Independence of what is stored, of constant columns, of units (C78, C79, C86, C87) is proved by simulations between two runs (`Proofs/Transport*`, `Proofs/Sim*`).
- Decision trees are an inductive type of their own (`Spec/DecisionTree.lean`); C88 reads stored samples as such trees.

## Trusted base

- Lean's kernel, and the axioms propext, Classical.choice, Quot.sound; per theorem in the table below. No sorry, no own axioms, no
  native_decide, no bv_decide. `decide +kernel` (evaluation in the kernel) is used for examples and witnesses.
- The reading of the code recorded in the comments of `Verif/Model`: that each definition does what the cited lines do. /repo was read, not run.
- The statements of the theorems, and the definitions in `Verif/Spec` they use.

### Assumptions about other libraries

- numpy: `np.random.choice(l)` returns an element of `l`, `np.random.gamma(shape, scale)` has the gamma law (C36) and is NaN for a scale that is NaN (C112; numpy 1.17 and later), `np.random.uniform` and `normal` the laws of
  their names (C28, C35); comparisons with NaN are false; `max` of an array propagates NaN and raises on an empty array; `np.percentile` interpolates linearly, takes percents, raises
  outside of 0..100; of an empty list it raises IndexError (some versions return NaN); broadcasting of arrays of length 1 in `y - prediction`.
- pandas: `X.values` of a DataFrame; indexing a DataFrame with a list selects columns, with `[:, j]` raises; a DataFrame has no `iter_rows`; unequal lists in `pd.DataFrame` raise ValueError.
- sklearn: `clone`, `get_params`, `set_params`, `KFold` as documented (folds are inputs); the arrays of a fitted decision tree have the documented meaning; its rounding of `X` to
  float32 is not modelled (C62). The modules `sklearn.feature_selection.base` and `sklearn.linear_model.base`, which newer versions do not have, are assumed to be importable.
- joblib: `Parallel` returns the results in order of the tasks; each chain has its own draws (for chains in worker processes that start with equal generators see C85).
- statsmodels, matplotlib, seaborn: nothing is assumed; the model ends at the data handed to them.

### Not modelled

- Rounding of floats, except for `1/thin` (C43) the running prediction (C116) and the scaling of the target (C118), where binary64 without overflow and subnormal numbers is modelled; overflow, signed zeros, time and memory, the recursion limit as a number (except for `propose`, C117), printing, logging, progress bars, drawing of plots, pickling.
- Targets with NaN or infinities, except in `Verif/Model/AnyTarget.lean` (C112); `y` that is not one-dimensional or has another length than `X`, except whether `fit` returns for it (C129, `Verif/Model/Lengths.lean`); DataFrames with labels that are not strings, subclasses of DataFrame; non-numeric features.
- Which arrays are the same object: arrays are values, except in `Verif/Model/Arrays.lean` (C114).
- `n_trees = 0` in a prediction of a live model, where Python has a scalar instead of an array (stored samples of such models are modelled).
- A leaf value that becomes infinite or NaN: the leaf sampler returns the error `nonFinite` (over the reals C67 and C70 show that this does not occur for targets that are finite and not constant; C112 is about the others).
- Concurrent use of one object from several threads.

### Axioms of the 414 theorems in MANIFEST.json (`#print axioms`)

- none: `C83_own_model_partial`
- propext: `C84_fresh_partial`, `C84_seed_partial`
- propext, Quot.sound: `C11_conjunction`, `C11_incremental`, `C11_order_irrelevant`, `C13_root_condition_partial`, `C14_most_recent`, `C155_refuted`, `C156_proportion`, `C50_residuals`, `C51_combine`, `C52_predict`, `C53_refuted`, `C60_global_refuted`, `C60_local_partial`, `C81_reported`, `C82_refuted`, `C84_direct_partial`, `C91_no_trees`, `C93_refuted`, `C93_unfitted_partial`, `C95_too_many_partial`
- propext, Classical.choice, Quot.sound: the other 391

## Which code is modelled

Generated from the citations in `Verif/Model`. Each line: function, lines, definitions of the model (`file.definition`) that cite these lines.

**bartpy/data.py**

- is_not_constant (11-34): Data.isNotConstant, Data.isNotConstantLoop
- ensure_numpy_array (37-41): Tables.Table.values
- ensure_float_array (44-45): Tables.formatCovariateMatrix
- format_covariate_matrix (48-50): Tables.formatCovariateMatrix
- make_bartpy_data (53-58): Tables.makeBartpyData
- CovariateMatrix.__init__ (63-91): Data.CovariateMatrix, Data.init, Diagnostics.SkModel.trainingX, Initializer.covariateMatrixAttributes, Tables.Table.values
- CovariateMatrix.mask (93-95): Initializer.covariateMatrixAttributes
- CovariateMatrix.values (97-99): Initializer.covariateMatrixAttributes
- CovariateMatrix.get_column (101-104): Data.getColumn, Data.unmaskedRows, Initializer.covariateMatrixAttributes, Lengths.boolRows, Lengths.getColumn
- CovariateMatrix.splittable_variables (106-119): Data.fillSplittable, Data.splittable, Initializer.covariateMatrixAttributes, Lengths.splittableOf
- CovariateMatrix.n_splittable_variables (121-123): Data.nSplittable, Initializer.covariateMatrixAttributes
- CovariateMatrix.is_at_least_one_splittable_variable (125-129): Data.isAtLeastOneSplittable, Initializer.covariateMatrixAttributes, Lengths.isAtLeastOneSplittable
- CovariateMatrix.random_splittable_variable (131-141): Data.randomSplittableVariable, Initializer.covariateMatrixAttributes
- CovariateMatrix.is_column_unique (143-154): Data.isColumnUnique, Data.npUniqueCount, Initializer.covariateMatrixAttributes
- CovariateMatrix.max_value_of_column (156-159): Data.maxValueOfColumn, Data.npMaxList, Initializer.covariateMatrixAttributes
- CovariateMatrix.random_splittable_value (161-185): Data.drawNonMax, Data.randomSplittableValue, Initializer.covariateMatrixAttributes
- CovariateMatrix.proportion_of_value_in_variable (187-191): Data.proportionOfValue, Initializer.covariateMatrixAttributes
- CovariateMatrix.update_mask (193-201): Data.updateMask, Initializer.covariateMatrixAttributes, SplitCondition.Op
- CovariateMatrix.variables (203-205): Initializer.covariateMatrixAttributes
- CovariateMatrix.n_obsv (207-209): Initializer.covariateMatrixAttributes
- Target.__init__ (214-231): AnyTarget.fit, AnyTarget.yMax, AnyTarget.yMin, Data.Target, Data.init, Initializer.covariateMatrixAttributes, Lengths.fit
- Target.normalize_y (233-253): AnyTarget.normalized, AnyTarget.yMax, AnyTarget.yMin, Data.normalizeY, Scaling.normalize
- Target.unnormalize_y (255-258): AnyTarget.unnormalized, Data.unnormalizeY, Scaling.unnormalize, Sklearn.unnormalizeList
- Target.unnormalized_y (260-262): Data.unnormalizedY
- Target.normalizing_scale (264-266): Data.normalizingScale
- Target.summed_y (268-274): AnyTarget.summedY, Data.sumY
- Target.update_y (276-278): Data.updateY
- Data.__init__ (302-322): Data.Data, Data.countUnmasked, Data.init, Diagnostics.dataAttributes, Lengths.newMask, Lengths.predictRoot
- Data.y (324-326): Diagnostics.dataAttributes
- Data.X (328-330): Diagnostics.SkModel.trainingX, Diagnostics.dataAttributes
- Data.mask (332-334): Diagnostics.dataAttributes
- Data.update_y (336-337): Data.updateY, Diagnostics.dataAttributes
- Data.__add__ (339-349): Data.add, Diagnostics.dataAttributes

**bartpy/diagnostics/diagnostics.py**

- plot_diagnostics (10-18): Diagnostics.plotDiagnostics

**bartpy/diagnostics/features.py**

- feature_split_proportions (16-35): Features.featureSplitProportions, Features.splitVariables
- plot_feature_split_proportions (38-51): FeaturePlots.plotFeatureSplitProportions
- null_feature_split_proportions_distribution (54-92): Features.appendAll, Features.nullFeatureSplitProportions, Features.nullLoop
- plot_null_feature_importance_distributions (95-103): FeaturePlots.plotNullDistributions
- local_thresholds (106-129): Features.localThresholds
- global_thresholds (132-161): Features.globalThresholds, GlobalThresholds.frameRows, GlobalThresholds.globalThresholdsWith, GlobalThresholds.rowMax
- kept_features (164-180): Features.keptFeatures
- is_kept (183-201): Features.isKept
- partition_into_passed_and_failed_features (204-208): Features.partitionFeatures
- plot_feature_proportions_against_thresholds (211-222): FeaturePlots.plotAgainstThresholds

**bartpy/diagnostics/residuals.py**

- plot_qq (8-14): Diagnostics.plotQq
- plot_homoskedasity_diagnostics (17-24): Diagnostics.plotHomoskedasity

**bartpy/diagnostics/sampling.py**

- plot_tree_mutation_acceptance_rate (6-15): Diagnostics.plotAcceptanceRate

**bartpy/diagnostics/sigma.py**

- plot_sigma_convergence (6-14): Diagnostics.plotSigmaConvergence

**bartpy/diagnostics/trees.py**

- plot_tree_depth (7-26): Diagnostics.Sample.depths, Diagnostics.depthSummary, Diagnostics.plotTreeDepth

**bartpy/extensions/baseestimator.py**

- ResidualBART.__init__ (10-19): Extensions.ResidualBart, Extensions.init, Params.ResidualObj, Params.clone, Params.init
- ResidualBART.fit (21-24): Extensions.fit
- ResidualBART.predict (26-31): Extensions.predict

**bartpy/extensions/ols.py**

- OLS.__init__ (10-15): Extensions.StatModel, Extensions.init, Params.OlsObj, Params.OlsObj.init
- OLS.fit (17-20): Extensions.fit
- OLS.predict (22-27): Extensions.predict

**bartpy/features/featureimportance.py**

- original_model_rmse (13-42): Features.originalModelRmse, Tables.originalModelRmseTable
- null_rmse_distribution (45-100): Features.NullRun.dataSet, Features.nullRmseDistribution, Features.nullRmses, Features.permuteColumn, Tables.nullRmseDistributionTable
- feature_importance (103-144): Tables.featureImportance

**bartpy/features/featureselection.py**

- SelectSplitProportionThreshold.__init__ (16-20): Features.selectProportionFit, Params.ProportionSelector, Params.ProportionSelector.init
- SelectSplitProportionThreshold.fit (22-26): Features.selectProportionFit
- SelectSplitProportionThreshold._get_support_mask (28-29): Features.selectProportionMask
- SelectSplitProportionThreshold.plot (31-33): FeaturePlots.selectProportionPlot
- SelectNullDistributionThreshold.__init__ (38-54): Features.nullSelectorModel, Params.nullSelectorMethod
- SelectNullDistributionThreshold.fit (56-62): Features.NullSelector, Features.nullSelectorFit
- SelectNullDistributionThreshold._get_support_mask (64-65): Features.NullSelector.mask
- SelectNullDistributionThreshold.plot (67-71): FeaturePlots.NullSelector.plot

**bartpy/initializers/initializer.py**

- Initializer.initialize_tree (20-21): Initializer.baseInitializeTree
- Initializer.initialize_trees (23-25): Initializer.BModel.initializeTrees

**bartpy/initializers/sklearntreeinitializer.py**

- SklearnTreeInitializer.initialize_tree (28-41): Initializer.sklearnInitializeTree
- map_sklearn_split_into_bartpy_split_conditions (44-60): Initializer.mapSklearnSplit
- map_sklearn_tree_into_bartpy (63-94): Initializer.mapSklearnNode, Initializer.mapSklearnSearch, Initializer.mapSklearnTree

**bartpy/model.py**

- Model.__init__ (17-42): AnyTarget.AState, Arrays.MModel, Arrays.start, BartModel.BModel, BartModel.construct, Initializer.BModel.constructWith, Lengths.fit, Likelihood.Params, Samples.StoredModel, Samples.deepCopy
- Model.initialize_trees (44-48): AnyTarget.ATree.root, AnyTarget.start, Arrays.start, BartModel.initTree, Data.Target, Lengths.fit, Rounding.chain, Tree.Tree, Tree.ofData
- Model.residuals (50-51): AnyTarget.posteriorBeta, Arrays.MModel.sweep, BartModel.residuals, Lengths.fit
- Model.unnormalized_residuals (53-54): Diagnostics.BModel.unnormalizedResiduals
- Model.predict (56-59): AnyTarget.predictTrees, Arrays.MModel.predict, Arrays.MModel.run, Arrays.predictTrees, BartModel.predict, BartModel.predictTrees, Lengths.fitColumns, Rounding.total
- Model._out_of_sample_predict (61-65): AnyTarget.predictTrees, BartModel.predictX, Samples.storedPredictX, Sklearn.Sample.predictX, Tables.Sample.predictOn, Tables.SkModel.predictTable, Tables.Table.values
- Model.refreshed_trees (71-78): AnyTarget.AState, AnyTarget.start, AnyTarget.sweepTrees, Arrays.MModel.running, Arrays.MModel.sweep, Arrays.loop, BartModel.refreshBegin, BartModel.refreshEnd, BartModel.refreshLoop, BartModel.startPrediction, BartModel.sweepTrees, Initializer.BModel.initializeTrees, Lengths.fit, Lengths.fitColumns, ObliviousFit.sweepTrees, Recursion.sweepTrees, Rounding.sweep, Schedule.enterTree
- Model.sigma_m (80-82): Likelihood.sigmaM
- Model.sigma (84-86): Diagnostics.Sample.sigmaValue, Samples.storedSigma
- deep_copy_model (89-91): Samples.StoredModel, Samples.deepCopy

**bartpy/mutation.py**

- TreeMutation.__init__ (13-16): Tree.MutationKind, Tree.TreeMutation
- PruneMutation.__init__ (24-27): Tree.pruneMutation
- GrowMutation.__init__ (32-35): Tree.growMutation

**bartpy/node.py**

- TreeNode.__init__ (14-18): AnyTarget.ANode, Node.Node
- TreeNode.data (20-22): AnyTarget.ANode, Node.dataOf
- TreeNode.left_child (24-26): AnyTarget.ANode
- TreeNode.right_child (28-30): AnyTarget.ANode
- TreeNode.split (32-34): AnyTarget.ANode
- TreeNode.update_y (36-40): AnyTarget.ANode, Node.nodeUpdateY
- LeafNode.__init__ (51-53): AnyTarget.AContent, AnyTarget.ATree.root, Node.Node, Node.newLeaf, Rounding.chain
- LeafNode.set_value (55-56): AnyTarget.AContent, Node.setValue
- LeafNode.current_value (58-60): AnyTarget.AContent
- LeafNode.predict (62-63): AnyTarget.AContent
- LeafNode.is_splittable (65-66): AnyTarget.AContent, Lengths.isAtLeastOneSplittable, Node.isSplittable
- DecisionNode.__init__ (75-76): AnyTarget.AContent, Node.Node, Node.newDecision
- DecisionNode.is_prunable (78-79): AnyTarget.AContent, Node.isPrunable
- DecisionNode.most_recent_split_condition (81-82): Node.mostRecentSplitCondition
- split_node (85-99): AnyTarget.summedY, Node.splitNode
- deep_copy_node (102-110): Copy.Heap.deepCopyNode

**bartpy/plotting.py**

- plot_residuals (6-8): Diagnostics.SkModel.dataUnnormalizedY, Diagnostics.plotResiduals, Diagnostics.plotResidualsWith
- plot_modelled_against_actual (11-14): Diagnostics.SkModel.dataUnnormalizedY, Diagnostics.plotModelledAgainstActual, Diagnostics.plotModelledAgainstActualWith

**bartpy/runner.py**

- convert_chains_models (14-26): Sklearn.convertChainsModels, Sklearn.fromExtracts, Sklearn.groupChains, Sklearn.groupLoop
- run_models (29-55): Sklearn.runAll, Sklearn.runModels

**bartpy/samplers/leafnode.py**

- LeafNodeSampler.__init__ (17-19): Generator.new
- LeafNodeSampler.step (21-24): AnyTarget.leafValues, Samplers.leafStep
- LeafNodeSampler.sample (26-33): AnyTarget.leafValue, Samplers.leafPosteriorMean, Samplers.leafPosteriorVariance, Samplers.leafStep, Samplers.leafValue

**bartpy/samplers/modelsampler.py**

- ModelSampler.step (23-30): AnyTarget.sweep, Arrays.MModel.run, Arrays.MModel.sweep, BartModel.acceptance, BartModel.sweep, ObliviousFit.acceptance, ObliviousFit.sweep, Recursion.sweep, Schedule.Runs, Schedule.stepResult
- ModelSampler.samples (32-67): AnyTarget.chain, AnyTarget.sweeps, Arrays.burn, Arrays.chain, Arrays.sampling, Double.thinInverse, Lengths.fit, ObliviousFit.burn, ObliviousFit.sampleLoop, ObliviousFit.samples, Recursion.sweeps, Rounding.sweeps, Samples.Chain, Samples.SampleParams, Samples.burn, Samples.recordPrediction, Samples.sampleLoop, Samples.samples

**bartpy/samplers/oblivioustrees/likihoodratio.py**

- log_grow_ratio (13-29): Oblivious.logGrowRatio
- UniformTreeMutationLikihoodRatio.log_transition_ratio (40-48): Oblivious.logTransitionRatio
- UniformTreeMutationLikihoodRatio.log_tree_ratio (50-56): Oblivious.logTreeRatio
- UniformTreeMutationLikihoodRatio.log_likihood_ratio (58-69): Oblivious.logLikihoodRatio
- UniformTreeMutationLikihoodRatio.log_likihood_ratio_grow (71-73): Oblivious.logLikihoodRatio
- UniformTreeMutationLikihoodRatio.log_likihood_ratio_prune (75-77): Oblivious.logLikihoodRatio
- UniformTreeMutationLikihoodRatio.log_grow_transition_ratio (79-86): Oblivious.logTransitionRatio
- UniformTreeMutationLikihoodRatio.log_prune_transition_ratio (88-92): Oblivious.logTransitionRatio
- UniformTreeMutationLikihoodRatio.log_tree_ratio_grow (94-104): Oblivious.logTreeRatio
- UniformTreeMutationLikihoodRatio.log_tree_ratio_prune (106-116): Oblivious.logTreeRatio
- log_probability_split_within_tree (119-127): Oblivious.logSplitWithinNode
- log_probability_split_within_node (130-140): Oblivious.logSplitWithinNode

**bartpy/samplers/oblivioustrees/proposer.py**

- grow_mutations (15-16): Oblivious.growMutations
- prune_mutations (19-20): Oblivious.pruneMutations
- UniformMutationProposer.__init__ (25-30): Oblivious.sampleMethod
- UniformMutationProposer.propose (32-39): Oblivious.propose, Oblivious.sampleMethod
- sample_split_condition (42-56): Oblivious.sampleSplitCondition
- sample_split_node (59-71): Oblivious.sampleSplitNode

**bartpy/samplers/oblivioustrees/treemutation.py**

- UnconstrainedTreeMutationSampler.sample (40-46): Oblivious.sumRatios, Oblivious.treeSample, ObliviousFit.treeBody
- UnconstrainedTreeMutationSampler.step (48-53): Oblivious.mutateAll, Oblivious.treeStep, ObliviousFit.treeBody

**bartpy/samplers/sampler.py**


**bartpy/samplers/scalar.py**

- NormalScalarSampler.__init__ (8-11): Scalar.ScalarSampler, Scalar.new
- NormalScalarSampler.sample (13-16): Generator.serve, Scalar.sample
- NormalScalarSampler.refresh_cache (18-19): Generator.serve, Scalar.refreshCache
- UniformScalarSampler.__init__ (24-27): Scalar.ScalarSampler, Scalar.new
- UniformScalarSampler.sample (29-32): Generator.serve, Scalar.sample
- UniformScalarSampler.refresh_cache (34-35): Generator.serve, Scalar.refreshCache
- DiscreteSampler.__init__ (40-49): Scalar.ScalarSampler, Scalar.new
- DiscreteSampler.sample (51-54): Generator.serve, Scalar.sample
- DiscreteSampler.refresh_cache (56-57): Generator.serve, Scalar.refreshCache

**bartpy/samplers/schedule.py**

- SampleSchedule.steps (36-55): AnyTarget.leafValues, AnyTarget.sweep, AnyTarget.sweepTrees, AnyTarget.treeBody, Arrays.MModel.sweep, Arrays.loop, BartModel.sweepTrees, BartModel.treeBody, Lengths.fit, ObliviousFit.sweepTrees, ObliviousFit.treeBody, Recursion.sweepTrees, Recursion.treeBody, Samplers.leafSteps, Schedule.Closure, Schedule.StepKind, Schedule.enterLeaf, Schedule.enterTree

**bartpy/samplers/sigma.py**

- SigmaSampler.step (10-13): BartModel.sigmaStep
- SigmaSampler.sample (15-20): AnyTarget.posteriorBeta, AnyTarget.sigmaValue, Arrays.sigmaDraw, BartModel.sigmaShape, BartModel.sigmaStep, Lengths.fitColumns

**bartpy/samplers/treemutation.py**

- TreeMutationLikihoodRatio.log_probability_ratio (57-77): AnyTarget.ratio, Likelihood.logProbabilityRatio, Likelihood.logTreeRatio, Oblivious.logProbabilityRatio

**bartpy/samplers/unconstrainedtree/likihoodratio.py**

- log_grow_ratio (13-33): AnyTarget.likelihood, Likelihood.growRatioValue, Likelihood.logGrowRatio
- UniformTreeMutationLikihoodRatio.log_transition_ratio (44-52): Likelihood.logTransitionRatio
- UniformTreeMutationLikihoodRatio.log_tree_ratio (54-60): Likelihood.logTreeRatio
- UniformTreeMutationLikihoodRatio.log_likihood_ratio (62-70): Likelihood.logLikihoodRatio
- UniformTreeMutationLikihoodRatio.log_likihood_ratio_grow (72-74): AnyTarget.likelihood, Likelihood.logLikihoodRatio
- UniformTreeMutationLikihoodRatio.log_likihood_ratio_prune (76-78): AnyTarget.likelihood, Likelihood.logLikihoodRatio
- UniformTreeMutationLikihoodRatio.log_grow_transition_ratio (80-87): AnyTarget.ratio, Likelihood.logGrowTransition
- UniformTreeMutationLikihoodRatio.log_prune_transition_ratio (89-102): AnyTarget.ratio, Likelihood.logPruneTransition
- UniformTreeMutationLikihoodRatio.log_tree_ratio_grow (104-114): AnyTarget.ratio, Likelihood.logTreeRatioGrow
- UniformTreeMutationLikihoodRatio.log_tree_ratio_prune (116-126): AnyTarget.ratio, Likelihood.logTreeRatioPrune
- n_prunable_decision_nodes (129-134): Likelihood.nPrunable
- n_splittable_leaf_nodes (137-142): Likelihood.nSplittableLeaves
- log_probability_split_within_tree (145-154): Likelihood.logSplitWithinTree
- log_probability_split_within_node (157-169): Likelihood.logSplitWithinNode
- log_probability_node_split (172-173): Likelihood.logNodeSplit
- log_probability_node_not_split (176-177): Likelihood.logNodeNotSplit

**bartpy/samplers/unconstrainedtree/proposer.py**

- uniformly_sample_grow_mutation (15-18): Proposer.sampleGrow
- uniformly_sample_prune_mutation (21-24): Proposer.samplePrune
- UniformMutationProposer.__init__ (29-41): Generator.new, Proposer.Method, Proposer.sampleMethod
- UniformMutationProposer.propose (43-50): Lengths.proposeRoot, Proposer.propose, Proposer.sampleMethod, Recursion.propose
- random_splittable_leaf_node (53-62): Lengths.proposeRoot, Proposer.sampleGrow
- random_prunable_decision_node (65-73): Lengths.proposeRoot, Proposer.samplePrune
- sample_split_condition (76-90): Proposer.sampleSplitCondition
- sample_split_node (93-99): Proposer.sampleSplitNode

**bartpy/samplers/unconstrainedtree/treemutation.py**

- UnconstrainedTreeMutationSampler.__init__ (30-36): Generator.new
- UnconstrainedTreeMutationSampler.sample (38-44): AnyTarget.treeStep, Recursion.treeStep, Samplers.treeSample
- UnconstrainedTreeMutationSampler.step (46-50): AnyTarget.treeStep, Recursion.treeStep, Samplers.treeStep
- get_tree_sampler (53-57): Params.TreeSampler

**bartpy/sigma.py**

- Sigma.__init__ (21-25): AnyTarget.start, BartModel.Sigma, Likelihood.Params
- Sigma.set_value (27-28): Likelihood.Params
- Sigma.current_value (30-31): Diagnostics.Sample.sigmaValue, Likelihood.Params
- Sigma.current_unnormalized_value (33-34): BartModel.Sigma.unnormalized, Likelihood.Params

**bartpy/sklearnmodel.py**

- run_chain (22-33): ObliviousFit.runChain, Params.toSk, Recursion.chain, Sklearn.runChain, SklearnInit.runChainWith
- SklearnModel.__init__ (87-122): Diagnostics.plotAcceptanceRate, Params.Param.assign, Params.Settings, Params.Settings.default, Params.SkObj, Params.clone, Params.init, Sklearn.SkModel
- SklearnModel.fit (124-145): AnyTarget.fit, Diagnostics.plotAcceptanceRate, Generator.worker, Lengths.fit, Lengths.fitColumns, ObliviousFit.fit, ObliviousFit.runChains, Params.fit, Recursion.chains, Recursion.fit, Sklearn.fit, Sklearn.runChains, SklearnInit.fitWith, SklearnInit.runChainsWith, Tables.SkModel.fitTable
- SklearnModel._combine_chains (147-153): AnyTarget.chains, AnyTarget.fit, Lengths.fit, Sklearn.Combined, Sklearn.combineChains, Tables.SkModel.fitTable
- SklearnModel._convert_covariates_to_data (155-161): Sklearn.convertData, Tables.SkModel.fitTable, Tables.Table.values
- SklearnModel._construct_model (163-174): AnyTarget.fit, Lengths.fit, Sklearn.constructModel, SklearnInit.constructModelWith, Tables.SkModel.fitTable, Tables.originalModelRmseTable
- SklearnModel.f_delayed_chains (176-193): Generator.worker, Sklearn.runChains, SklearnInit.runChainsWith
- SklearnModel.f_chains (195-206): Sklearn.runChains, SklearnInit.runChainsWith
- SklearnModel.predict (208-231): AnyTarget.AFit.predict, Params.predict, Sklearn.predict, Tables.SkModel.predictTable
- SklearnModel.residuals (233-252): Extensions.residuals, Extensions.residualsWith, Sklearn.residuals
- SklearnModel.l2_error (254-269): Sklearn.l2Error
- SklearnModel.rmse (271-288): Sklearn.rmse
- SklearnModel._out_of_sample_predict (290-291): AnyTarget.AFit.predict, Sklearn.outOfSamplePredict, Tables.SkModel.predictOn, Tables.SkModel.predictTable
- SklearnModel.fit_predict (293-298): Extensions.fitPredict, Sklearn.fitPredict
- SklearnModel.prediction_samples (330-341): Sklearn.predictionSamples
- SklearnModel.from_extract (343-366): Sklearn.SkModel, Sklearn.fromExtract

**bartpy/split.py**

- Split.__init__ (20-24): Node.Split, SplitCondition.CombinedCondition
- Split.condition (33-37): Node.inSample, Node.outOfSample
- Split.out_of_sample_condition (39-40): Node.outOfSample
- Split.out_of_sample_conditioner (42-43): Copy.Heap.deepCopyNode, Node.outOfSample
- Split.__add__ (45-48): Node.splitAdd

**bartpy/splitcondition.py**

- SplitCondition.__init__ (18-31): SplitCondition.Op, SplitCondition.SplitCondition
- SplitCondition.__eq__ (36-37): SplitCondition.SplitCondition.pyEq
- CombinedVariableCondition.__init__ (42-44): SplitCondition.CombinedVariableCondition
- CombinedVariableCondition.add_condition (46-54): SplitCondition.CombinedVariableCondition.addCondition
- CombinedCondition.__init__ (59-67): SplitCondition.CombinedCondition, SplitCondition.addTo, SplitCondition.init
- CombinedCondition.condition (69-73): SplitCondition.condition, Tables.CombinedCondition.condStep, Tables.CombinedCondition.conditionOn
- CombinedCondition.__add__ (75-76): SplitCondition.add
- CombinedCondition.most_recent_split_condition (78-82): SplitCondition.mostRecentSplitCondition

**bartpy/trace.py**

- TraceLogger.__init__ (11-17): ObliviousFit.acceptance, Schedule.logMessage
- TraceLogger.__getitem__ (19-29): ObliviousFit.acceptance, Schedule.logMessage

**bartpy/tree.py**

- Tree.__init__ (24-27): AnyTarget.ATree, Arrays.MTree, Tree.Tree
- Tree.nodes (29-34): AnyTarget.ATree
- Tree.leaf_nodes (36-41): Tree.leafNodes
- Tree.splittable_leaf_nodes (43-49): Tree.filterSplittable, Tree.splittableLeafNodes
- Tree.decision_nodes (51-57): Tree.decisionNodes
- Tree.prunable_decision_nodes (59-65): Tree.prunableDecisionNodes
- Tree.update_y (67-74): Arrays.loop, Tree.updateNodes, Tree.updateY
- Tree.predict (76-91): AnyTarget.ATree.value, Arrays.MModel.run, Arrays.MTree.predict, Arrays.writeLeaf, Lengths.fit, Lengths.predictRoot, Tree.PredBuf, Tree.predict, Tree.predictLoop, Tree.predictX, Tree.zerosBuf
- Tree._out_of_sample_predict (93-110): AnyTarget.ATree.value, Extensions.predict, Lengths.predictRoot, Tables.Tree.predictOn, Tables.Tree.predictStep, Tree.predictX
- Tree.remove_node (112-117): Tree.removeNode
- mutate (127-157): AnyTarget.ATree.apply, Tree.mutate, Tree.mutateNodes, Tree.relinkNode
- deep_copy_tree (160-174): Copy.deepCopy

Functions without a definition of their own:

- bartpy/data.py:280-282 Target.values: the attribute is modelled as a field
- bartpy/initializers/sklearntreeinitializer.py:20-26 SklearnTreeInitializer.__init__: stores its arguments; the fitted regressor is an input
- bartpy/model.py:67-69 Model.trees: accessor
- bartpy/mutation.py:18-19 TreeMutation.__str__: text
- bartpy/samplers/modelsampler.py:17-21 ModelSampler.__init__: stores its arguments
- bartpy/samplers/oblivioustrees/likihoodratio.py:34-38 UniformTreeMutationLikihoodRatio.__init__: stores its arguments
- bartpy/samplers/oblivioustrees/likihoodratio.py:143-144 log_probability_node_split: a copy of the function in unconstrainedtree, whose model is used
- bartpy/samplers/oblivioustrees/likihoodratio.py:147-148 log_probability_node_not_split: a copy of the function in unconstrainedtree, whose model is used
- bartpy/samplers/oblivioustrees/treemutation.py:32-38 UnconstrainedTreeMutationSampler.__init__: stores its arguments
- bartpy/samplers/oblivioustrees/treemutation.py:56-60 get_tree_sampler: builds the sampler objects
- bartpy/samplers/sampler.py:9-11 Sampler.step: abstract
- bartpy/samplers/schedule.py:28-34 SampleSchedule.__init__: stores its arguments
- bartpy/samplers/treemutation.py:21-22 TreeMutationSampler.sample: abstract
- bartpy/samplers/treemutation.py:24-25 TreeMutationSampler.step: abstract
- bartpy/samplers/treemutation.py:34-49 TreeMutationProposer.propose: abstract
- bartpy/samplers/treemutation.py:79-98 TreeMutationLikihoodRatio.log_transition_ratio: abstract
- bartpy/samplers/treemutation.py:100-121 TreeMutationLikihoodRatio.log_tree_ratio: abstract
- bartpy/samplers/treemutation.py:123-143 TreeMutationLikihoodRatio.log_likihood_ratio: abstract
- bartpy/samplers/unconstrainedtree/likihoodratio.py:38-42 UniformTreeMutationLikihoodRatio.__init__: stores its arguments
- bartpy/sklearnmodel.py:36-37 delayed_run_chain: wrapper for joblib
- bartpy/sklearnmodel.py:300-315 SklearnModel.model_samples: accessor
- bartpy/sklearnmodel.py:317-328 SklearnModel.acceptance_trace: accessor
- bartpy/split.py:26-28 Split.data: accessor
- bartpy/split.py:30-31 Split.combined_condition: accessor
- bartpy/split.py:50-51 Split.most_recent_split_condition: calls the method of the combined condition, which is modelled (C14)
- bartpy/splitcondition.py:33-34 SplitCondition.__str__: text
- bartpy/tree.py:119-124 Tree.add_node: never called

## Further findings in the code

Besides the properties that are refuted (status `partial` in MANIFEST.json, with a note each):

- `p_grow` and `p_prune` are documented parameters of `SklearnModel` (bartpy/sklearnmodel.py:62-65), but `__init__` does not accept them.
- `Tree.predict()` returns its cache by reference (bartpy/tree.py:84-91); a caller who changes the array changes later predictions (C114), and the next sweep changes the array.
- The default values `tree_sampler=get_tree_sampler(0.5, 0.5)`, `LeafNodeSampler(...)`, `UniformScalarSampler()` are built once at import time and shared by all models (C84, C85).
- `run_models` with `n_chains = 0` returns an empty list, whatever the number of data sets (bartpy/runner.py:18-26).
- `is_kept` prints (bartpy/diagnostics/features.py:200).
- `SelectNullDistributionThreshold` with an unknown method reads `self.method` in the message of the exception, before it exists: AttributeError in place of NotImplementedError (C83).
- The acceptance step compares a uniform draw with the log of the ratio (C28); together with the errors in the ratio (C30, C31, C32, C68) the stationary law is not the posterior.
- The percentile of the feature selectors is in percent for `np.percentile` but documented as a fraction (C60).

## Plan per property

- **C01 Splittable columns are exactly the non-constant ones** - isNotConstant is modelled loop by loop. Code skips row 0, so the property is false: refute with a witness, prove soundness and the exact characterisation (two distinct values among all rows but the first).
- **C02 Cached data queries are indistinguishable from recomputation** - Data with all its caches as explicit state; cache-free reference functions in Spec; refinement by induction over operation sequences, inheritance by the sublist argument.
- **C03 summed_y is the sum of the current target over the node's rows** - Corollary of C02's invariant plus split_node's carried sum.
- **C04 A split sends every row of the parent to exactly one child** - split_node on Data; complement argument over Finset sums.
- **C05 Missing values do not break the split partition** - False: witness with a NaN row that lies in both children; partial = C04.
- **C06 Sampled split values never give an empty child** - Rejection loop as recursion over the draw list; invariant of the loop; existence of an accepting draw from two distinct values.
- **C07 proportion_of_value_in_variable is the relative frequency of the value** - Count argument; unique column => each value counted once.
- **C08 The reported split-value probability is the probability of sampling it** - Distribution of the rejection sampler over uniform row draws (rational weights, limit of geometric series); refuted: proportion/(1-prop(max)).
- **C09 Normalised targets lie in [-0.5, 0.5], attain both ends and keep their order** - Ordered-field algebra.
- **C10 unnormalize_y inverts normalisation** - Ordered-field algebra.
- **C11 A combined condition is the conjunction of its split conditions** - Induction over the list of conditions (fold of bounds).
- **C12 In-sample and out-of-sample membership agree** - C11 + mask update.
- **C13 Rows with -inf or NaN are predicted like other rows** - False: -inf/NaN row rejected by the root; partial: finite/+inf rows accepted.
- **C14 most_recent_split_condition is the last condition added** - Heap model (node identities, child pointers, tree.nodes list); shape invariant by induction over tree operations.
- **C15 Every reachable tree is a well-formed binary tree** - C14 invariant + complement argument by induction over the shape.
- **C16 Leaves partition the training rows** - as C15
- **C17 Leaves partition feature space** - as C15 with out-of-sample conditions
- **C18 Node depth is the distance from the root** - part of the shape invariant
- **C19 Node lists are consistent and a non-trivial tree can always be pruned** - induction over shape
- **C20 Pruning undoes growing** - shape invariant: replace at node twice
- **C21 Illegal mutations are rejected** - case analysis of constructors; remove_node
- **C22 In-sample tree predictions reflect the current leaves** - False in general (set_value after predict; first predict after a mutation): refutations; partial for histories following the sampler's discipline (target update/mutation before each value change, a prediction before the first mutation).
- **C23 Out-of-sample predictions are those of the decision tree** - C15/C17 + walk of child pointers from the root.
- **C24 No node is ever empty** - invariant + C06
- **C25 Update of the target reaches every node** - fold over nodes and children
- **C26 Proposals are legal and do not change the tree** - case analysis on the proposer, frame lemmas for the heap
- **C27 Proposing always succeeds** - False when a single-leaf tree has no splittable column: prove no draw list makes it return; otherwise prove existence.
- **C28 The Metropolis-Hastings acceptance rule is applied** - False (u < log ratio): measure of accepting uniforms is clamp(l,0,1); refute; characterise.
- **C29 Likelihood ratios of a move and its reverse cancel** - algebra on extended reals
- **C30 log_grow_ratio is the log ratio of marginal likelihoods** - False (sigma_mu in place of its square): refute, prove equality at the points where it holds; the closed form itself is derived from the Gaussian integral if time permits
- **C31 Transition ratios of a move and its reverse cancel** - False in general: exact condition and witness
- **C32 Tree prior ratios of a move and its reverse cancel** - False in general: sum = -log(#splittable leaves)
- **C33 The sampler can always leave a tree** - False: trees without splittable leaf are frozen for every draw
- **C34 The depth prior is a probability that decreases with depth** - real analysis (rpow)
- **C35 Leaf parameters use the conjugate normal posterior** - completing the square; variance off by n_trees (refuted)
- **C36 Sigma uses the conjugate inverse-gamma posterior and stays positive** - rpow/exp identity; positivity
- **C37 Cached scalar samplers deliver each generated draw exactly once** - state machine, induction over calls
- **C38 Each tree is fitted to the residual of all other trees** - loop invariant of refreshed_trees, generic in what the samplers do
- **C39 The running prediction stays equal to the sum of tree predictions** - same invariant
- **C40 A Gibbs sweep has the documented order** - event log of a sweep
- **C41 Schedule steps can be collected before they are run** - False: late binding closures modelled by cells
- **C42 Initial trees share the target equally** - False: target is None
- **C43 thin is the proportion of samples that is stored** - False; exact count ceil(n/q)
- **C44 Stored samples are the states after the burn-in, in order** - induction over the loop
- **C45 The acceptance rate is the fraction of accepted tree mutations** - counting
- **C46 Stored samples are not affected by later sampling** - snapshot model with pointers into the live heap; leak through child links refuted part
- **C47 Stored samples keep the model parameters** - False for alpha,beta,k
- **C48 predict(X) is the unnormalised mean over stored samples** - algebra, convexity
- **C49 predict() equals predict(X_train)** - end-to-end corollary of C23, C39, C46
- **C50 Prediction errors are consistent** - rmse uses sum instead of mean: refuted part
- **C51 Chains are combined completely and in order** - list algebra
- **C52 Invalid use is reported** - case analysis
- **C53 prediction_samples returns the stored prediction samples** - False: recursion never returns
- **C54 run_models assigns chains to the data sets they were run on** - induction on grouping
- **C55 from_extract returns a model with the samples of the extract** - False: off by one
- **C56 Null-distribution selection compares the real model with the null** - False: consequence of C55
- **C57 Feature split proportions count the splits** - shape induction
- **C58 Kept features are those above their threshold** - list lemmas
- **C59 The support mask has one entry per column** - False: witness
- **C60 The percentile argument selects that quantile of the null distribution** - False: np.percentile(.,0.95) model
- **C61 Permutation RMSE uses matching test rows** - False: witness
- **C62 Mapping an sklearn tree preserves its predictions** - induction over the sklearn tree; root-only tree is an exception
- **C63 The sklearn initializer can be used** - False: AttributeError
- **C64 ResidualBART adds the base estimator and the BART fit of its residuals** - algebra
- **C65 Oblivious growth keeps a partition** - False: duplicated rows
- **C66 Oblivious trees use one split rule per depth** - False: witness
- **C67 Sampling with valid settings never raises** - error cases of every step ruled out over the reals
- **C68 The total ratio of a grow and that of the prune undoing it are reciprocal** - False: exact value of the sum
- **C69 Stored trees are self-contained** - False: links lead into the live tree; what stays fixed along the links is proved
- **C70 Fitting valid data never raises and can complete** - C67 along the run of the chain; existence by composing draws of the single sweeps
- **C71 original_model_rmse scores each fold on its own test rows** - induction over the folds
- **C72 Every split separates training rows** - children are nonempty (invariant of the sweep)
- **C73 A custom initializer keeps the model consistent** - induction over the trees, invariant of the refresh loop
- **C74 An oblivious prune step removes exactly the lowest splits** - invariant of the loop over the mutations: the remaining mutations still refer to disjoint subtrees
- **C75 A step of the oblivious sampler never raises** - False: single leaf that cannot be split; all other error cases ruled out
- **C76 A rejected oblivious step changes nothing** - frame lemmas: proposing only allocates and fills caches
- **C77 ResidualBART does not touch the estimator it is given** - False: the clone is overwritten by the original; object identities of estimators are modelled
- **C78 Predictions follow the units of the target** - the rescaled fit is the image of the other one under a map that changes only the remembered range and the scale of sigma; every function of the model commutes with it
- **C79 Predictions do not depend on the units of the features** - the same with a map of the feature values; comparisons are all the sampler looks at
- **C80 A second fit forgets the first** - fit reads only the settings
- **C81 set_params has the effect of the constructor argument** - False for tree_sampler (witness); otherwise induction over the life of the object and C80
- **C82 clone keeps the settings** - False for the extensions; otherwise as C81
- **C83 The feature selectors are well-behaved sklearn objects** - False: constructors copy their argument or compare it wrongly; identities of objects are modelled
- **C84 Seeding makes a fit reproducible** - False: induction over the leftovers of a sampler object; true when there are none
- **C85 Chains in different processes draw different numbers** - as C84, with copies of the sampler objects
- **C86 What is stored does not influence the sampling** - Simulation between a run with copies and the sweeps alone (Proofs/Sim*.lean)
- **C87 Constant columns do not matter** - The same simulation, with a strictly increasing map between the columns
- **C88 A fitted model is a mean of sums of decision trees** - Decision trees are a separate inductive type (Spec/DecisionTree.lean); the linked nodes of a tree are read off as one, by induction on the shape
- **C89 Where predictions are constant** - Corollary of C88
- **C90 The sigma plot shows the noise level in the units of the target** - False (C78's simulation shows that the curve does not depend on the units); partial from C44 and the scale factor of sigma
- **C91 The depth plot shows how deep the trees are** - False (witness); partial from C88 with the depths of the nodes
- **C92 The other diagnostic plots show residuals, fitted values and acceptance rates** - Corollary of C48, C50, C45
- **C93 The plots of bartpy.plotting can be used** - False: the attribute does not exist
- **C94 Unnormalized residuals are residuals in the units of the target** - Algebra on normalisation
- **C95 predict rejects data with another number of columns** - False (witness); the loop over the columns, by induction
- **C96 DataFrames are supported wherever the signatures say so** - False: the failing index expressions are modelled
- **C97 feature_importance works with an untrained model** - False: follows from C61's failure for unfitted models
- **C98 fit_predict is fit followed by predict** - From C49
- **C99 The settings of the estimator are those of the model that is sampled** - Frame conditions of a sweep
- **C100 The plots of the feature selectors show what is selected** - From C56-C58
- **C101 A fit can start from trees of the user's own** - Invariant of the model (C39) from the initialised model on, then C44, C49, C51
- **C102 Splits made by an initializer can be removed by the sampler** - Invariant under a relation between trees (as for C74): a split off the data is kept by every step, since its prune ratio is inf - inf
- **C103 A fit is the BART sampler on the raw data, draw by draw** - Refinement: abstraction function from the heap to lists of nodes (Proofs/RefLook.lean), then proposals, ratios, leaf values (RefPropose, RefStep), sweeps (RefSweep), chains and fit
- **C104 Order of the columns** - On the reference sampler (C103): readers of picks with a one-to-one translation of the picks (Proofs/Translate.lean), composed step by step along a sweep (RefPerm); then counting
- **C105 Order of the training rows** - As C104, with rows and columns reordered at once; refuted by a data set for which no proposal is ever possible
- **C106 Steps of the tree sampler at a fixed target change a tree only a bounded number of times** - A potential that increases with every accepted change, from the reciprocity of the ratios (C68), on the reference sampler (Proofs/NoReturn.lean); finitely many possible splits
- **C107 Splits and size of sampled trees** - Invariant of the splits of the reference sampler carried along a run (TreeRel), then induction on the tree
- **C108 Training data with two different rows can be fitted** - No proposal exists for trees as in C107 when no column qualifies; the converse is C70
- **C109 Chains are averaged** - On the reference sampler (C103), mean of means
- **C110 The transition ratio is the ratio of the probabilities of proposals** - Sums over all finite sequences of draws (Spec/Draws.lean), geometric series for the repetitions, on the reference sampler (Proofs/Draws.lean); then compared with the closed forms of the ratios (C31)
- **C111 The posterior distribution of trees is left unchanged** - Kernel of a step from C110 and C28; steps between splits form no cycle (the walk of C106), so an unchanged distribution has no flow between different splits (compare the probability of the splits that can be reached from a given one before and after)
- **C112 Targets that cannot be scaled are reported** - NaN in the scaled target makes every ratio, leaf value and residual NaN (induction over sweeps); simulation between the model with floats and the reference sampler (C103) for finite targets
- **C113 The sign of the target does not matter** - On the reference sampler (C103): all trees with the other sign of their values (Proofs/RefMirror.lean); the law of independent normal numbers is unchanged by the other sign
- **C114 Predictions do not change after they were returned or stored** - A separate model with memory locations (Model/Arrays.lean); invariant: caches of the trees, running sum and arrays held by others are different locations, and caches marked as up to date and the running sum hold the right sums; simulation with the reference sampler
- **C115 The direction of a feature does not matter** - On the reference sampler (C103): each cut of a turned column is replaced by the next larger value of the node, such that the same rows go to the same sides (Proofs/RefTurn.lean); computations that read picks and normal numbers with one-to-one translations of both (Proofs/Streams.lean)
- **C116 Rounding errors do not add up over the sweeps** - A separate model of the running prediction in which every operation is followed by a rounding function (`Model/Rounding.lean`); what the samplers do is arbitrary. One turn multiplies error plus size by (1+u)^2; induction over turns and sweeps. Binary64 as an instance (`Model/Double.lean`: nearest, ties to even, characterised by `round64_nearest`, `round64_unique`). Witness: a tree that goes up and down by half a unit in the last place, rounded up both times.
- **C117 A fit that can return does return** - On the reference sampler: a result that was reached stays when more draws are ready (`sweeps_more`); from any point some bounded number of further draws completes the run (`sweeps_completes`), so by a geometric bound on the measure of the unfinished sequences (`Proofs/AlmostSure.lean`) almost every infinite sequence completes. The limit on recursion is a counter (`Model/Recursion.lean`); it is not reached unless `R` consecutive kinds of move are equal (`Mixed`), and a union bound gives the probability.
- **C118 Scaling of the target survives rounding** - Scaling with a rounding function after every operation (`Model/Scaling.lean`); only monotony, the relative error and four exact numbers are used, the absolute errors are added up step by step.
- **C119 More chains bring the predictions closer to a fixed value** - Draws from a finite set of outcomes, independent over draws and chains (`Spec/Readings.lean`). The histories of a chain form a finite set (`Proofs/FiniteRange.lean`, by induction over the reference sampler), the event of each is measurable (a chain that ends is settled by finitely many draws), a chain ends with probability 1 (as C117), the fit averages the chains (C109); then the strong law of large numbers and the variance of a sum of independent variables (`Proofs/Averages.lean`).
- **C120 The trees of the stored samples are those that the sampler made** - Strengthens the simulation of C103: the relation between a run with deep copies and one without (`Proofs/Sim*.lean`) gives the same conditions, depths and values node by node; `Proofs/RefStored.lean` compares them with the reference nodes. Counting of splits as in C57.
- **C121 More chains bring the feature shares closer to a fixed value** - As C119; the counts of nodes and splits in the samples of a chain are functions of its history (C120), the law of large numbers for both, and the quotient of the limits; the expected number of nodes is positive since every sample has a tree.
- **C122 The oblivious sampler accepts a proposal when the uniform draw is below its ratio** - False: log 0 in the transition ratio and in the tree ratio with opposite signs; closed form of the ratio of one proposal (Proofs/ObliviousRatio.lean), which is finite when the value is counted
- **C123 In-sample and out-of-sample predictions agree with the oblivious sampler** - Model of the fit with the oblivious sampler (Model/ObliviousFit.lean); invariant OTree (pointer structure, every pair of siblings either complementary or sharing the split of the parent, all leaves at one depth) kept by steps, leaf values, copies; both predictions are the last leaf in list order.
- **C124 With the oblivious sampler each row is in exactly one leaf** - Covering from the invariant; refuted by a concrete fit in which a leaf with one row is doubled. The invariant records for every decision node either that nothing can be split below it or a comparison with rows on both sides; hence overlapping leaves have the same comparisons.
- **C125 Trees of the oblivious sampler are complete** - Perfect shape from the depth of the leaves, carried over to stored trees by the attributes of their nodes (C46).
- **C126 What can go wrong in a fit with the oblivious sampler** - Error branch of the same induction; over the reals leaf values are finite because every leaf has a row; a run in which all steps are rejected prune steps shows that fit can always return.
- **C127 The oblivious sampler is the layer-by-layer sampler** - Simulation, step by step (`Proofs/Layer*.lean`): the nodes of each depth, in the order of the list of nodes, are the leaves of the tree after that many growths; a doubled leaf is two nodes with the conditions of their parent. The rows of a node are those that satisfy its comparisons (C123), so that counts and sums are those of the reference implementation; deep copies are not touched by later sweeps.
- **C128 Units of the target and number of chains with the oblivious sampler** - Corollary of C127: scaling removes the units; samples of several chains are those of the chains one after the other, and all chains keep equally many.
- **C129 Targets that do not belong to the table are rejected** - False: no trees, or no sweeps. Otherwise the first selection of rows with the mask fails, whatever was drawn before.
- **C130 Feature shares and depths with the oblivious sampler** - False: doubled leaves count again. All nodes of a tree, level by level, are those of the reference sampler; each split and each doubling has two nodes below it.
- **C131 Units of the features, constant columns and the sign of the target with the oblivious sampler** - The reference sampler of C127 commutes with increasing functions of the columns, with further constant columns and with the change of sign.
- **C132 The order of the columns does not matter to the oblivious sampler** - As C104, with the reference sampler of C127 (`Proofs/LayerPerm.lean`): readers of picks with a one-to-one translation of the picks.
- **C133 The order of the training rows does not matter to the oblivious sampler** - As C132 with rows reordered; refuted by a table with a repeated value whose first row is the only one with another value.
- **C134 The probability that a fit with the oblivious sampler returns** - As C117, with the reference sampler of C127 (`Proofs/LayerReturns.lean`): what was done is not changed by later draws, and from any point a bounded number of draws lets the chain end. For tables that cannot be split: induction over the sweeps, all trees stay single leaves.
- **C135 The oblivious sampler takes no growth back while everything else is fixed** - The log ratio of a growth is a sum of three sums over the leaves; pruning the same layer gives the same three sums with the opposite sign (`Proofs/LayerRecur.lean`). A change is accepted only with positive log ratio, so a layer that was added can only be removed after another was added above it, and so on; the list of layers only gets longer. Transfer to trees with the correspondence of C127.
- **C136 The size of oblivious trees is bounded by the training data** - Refutation over the reals (`Proofs/LayerTower.lean`): three rows 0, 1, 2; the first growth splits off the largest row, all further growths double the leaves; the log likelihood ratio of a doubled leaf is positive and grows without bound as sigma goes to 0, so for small sigma the first D growths have log ratio at least 1. Bound: a sweep adds at most one layer.
- **C137 Oblivious sampler: the transition ratio is the ratio of the probabilities of proposals** - As C110: `propose` of the model is a function of the reference sampler of C127 (`Proofs/LayerProposal.lean`); the draws of different leaves are independent, so probabilities multiply (`Proofs/LayerDraws.lean`, `prob_append`: every sequence of picks splits in exactly one way into the picks of the first leaf and the rest).
- **C138 The posterior distribution of oblivious trees is left unchanged** - Sum over all draws of the measure of the uniform numbers that lead to the given leaves, with the reference sampler of C127 and the probabilities of C137. Changes raise the sum of the log ratios of the growths (C135), so no step leads back; the set of what can be reached from a tree would gain probability (`kernel_stays`).
- **C139 More chains of the oblivious sampler: predictions converge** - As C119, with the reference sampler of C127: finitely many histories (`Proofs/LayerFinite.lean`), a chain ends with probability 1 (as C134), fits average the chains (C128), law of large numbers.
- **C140 More chains of the oblivious sampler: column shares converge** - As C121, with the counts of C130.
- **C141 Oblivious sampler: the fitted model is a mean of sums of decision trees, constant between training entries** - `Proofs/LayerForest.lean`: the values of the layered reference tree of C127 are those of a decision tree (the leaf values of a path are merged by addition), with training entries as thresholds; then as C88 and C89.
- **C142 Oblivious sampler: burn-in, thinning and the number of samples only select samples** - As C86, with the reference sampler of C127.
- **C143 SelectNullDistributionThreshold: the percentile sets the false positive rate** - Exchangeability: the runs are independent with the same distribution, so each of the m + 1 is equally likely to be larger than d others, and at most m + 1 - d of them are (`Proofs/SelectorRuns.lean`). Together with the position of a percentile (C60) and the swap of C56. `Spec/Selection.lean` has the probabilities; `Proofs/SelectorReturns.lean` shows that the selector returns if the fits do.
- **C144 The same number of copies of every column has no effect** - Simulation through the reference sampler (C103): a tree on the data with copies is mapped to the tree with the original column in every split. The map does not identify nodes (`Faithful`, an invariant of the moves), so splittable leaves, prunable splits and moves correspond. A choice among k copies of a list is a choice from the list (`trans_pick_copies`). In the acceptance ratio the number of columns cancels between prior and proposal (`grow_cancel`, `prune_cancel`). `Proofs/RefCopy.lean`, `Proofs/RefCopySweep.lean`.
- **C145 Oblivious sampler: the same number of copies of every column has no effect** - Simulation through the reference sampler with layers (C127), as for C144. The acceptance ratio of the oblivious sampler contains no number of columns, so nothing has to cancel and no condition on logarithms is needed. `Proofs/LayerCopy.lean`.
- **C146 Copies of a column divide its share of the splits** - From the correspondence of C144 at the level of the reference sampler (`copies_reference`): merging the columns of a tree adds up the numbers of splits and keeps the nodes (`totalSplitsOn_merge`). Exchanging two equal columns is a reordering that leaves the data alone, so the correspondence of C104 exchanges their shares. The shares are those of C120.
- **C147 Oblivious sampler: copies of a column divide its share of the splits** - As C146, with the correspondences of C145 and C132 at the level of the reference sampler with layers and the counts of C130 (`tally_merge`, `tally_relabel`).
- **C148 Feature shares do not depend on the order of the columns or on the units and sign of the target** - The shares are computed from the samples of the reference samplers (`splitShareOf_fit`, `layer_share_fit`); relabelling the columns moves the counts (`totalSplitsOn_relabel`, `tally_relabel`), the scaled target is the same for a > 0, and for a < 0 the trees are mirrored, which leaves the counts (`totalSplitsOn_mirror`, `tally_mirror`).
- **C149 A constant column gets no feature share and takes none from the others** - `Proofs/RefRecode.lean`: the reference sampler on the changed table makes the same trees with the columns renamed and the cuts recoded (`Table.rfit`; with layers `Table.fit` of C131); the renamed trees have no split by a further column (`totalSplitsOn_extra`, `tally_extra`). A constant column is a further column of the table without it.
- **C150 Feature shares do not depend on the direction of columns without repeated values** - Corollary of the correspondence of C115: corresponding trees have the same nodes up to their order and the direction of the comparisons, so the same number of splits by each column.
- **C151 Residual models follow the units of the target** - Corollary of C78 with offset 0: the offset cancels in the residuals of the base estimator.
- **C152 Residual models do not depend on increasing transformations of the features** - Corollary of C79.
- **C153 Feature shares do not depend on the order of training rows without repeated values** - As C105 and C133, for the numbers of splits.
- **C154 Residual models do not depend on the order of the columns** - Corollary of C104, applied to the residuals of the base estimator.
- **C155 The global threshold is the same for all features and no less strict than the local one** - False: the method does not exist. With it: order statistics and percentiles are monotone.
- **C156 A higher percentile never selects more features** - Percentiles are monotone in their argument; induction on the features.
