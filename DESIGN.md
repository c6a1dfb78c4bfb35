# Formal model of MeDIL in Lean 4 — design

Everything is in `lean/Verif`. `Model/` mirrors the Python function by function (each definition cites
file and lines in `/repo`), `Spec.lean` holds the vocabulary in which properties are stated
(independent of the model), `Proofs/` holds helper lemmas, `Props/` holds the property theorems,
named after the property (`C07_…`), with non-vacuity examples beside them.

## How the code is modelled

* 0/1 and bool numpy arrays: bit tables (`BVec`, `BMat`, `BTab`) read through `A i j : Bool`; proofs
  use only "reading `of f` gives `f`". Integer arrays with entries outside {0,1} as adjacency matrices
  are out of scope.
* Exceptions are values (`Except PyErr`). Unbounded loops take a number of passes; a theorem shows the
  number suffices (termination), or that no number suffices (non-termination).
* Python set order (`set.pop`, iteration over a set, ties of `max` over a set) is an arbitrary
  schedule that may answer differently every time; all theorems quantify over it. Random generators
  are arbitrary draws/permutations supplied as arguments.
* In-place mutation: functions return the new value; the one array that is really shared between
  objects of a search (`reduced_away`) is threaded explicitly. For the clique cover search this is proved
  adequate: `HeapSearch.lean` models arrays by reference, and C201 shows that it computes the same; C207 does this for `max_cliques` (sets, lists, generators), C223 for `GaussianMCM` objects, C232 for the networks of NCFA. Module-level default generators are
  explicit state.
* Real arithmetic: floats are modelled as exact reals/rationals (`ℝ`, `ℚ`), integers as `Int`/`Nat`.
  Rounding, overflow and NaN propagation other than the explicitly modelled 0/0 are not modelled, except in
  C143, C144, C100 (conversions to integers), C211-C212 (integers that wrap around) and C197-C200, C215-C219, C228-C230 (arbitrary floating-point arithmetics).
* External calls (scipy `minimize`, `StandardScaler`, `train_test_split`, torch optimizers, p-value
  routines, `chi2.ppf`, `norm.cdf`) are parameters; nothing is assumed about them unless a theorem says
  so in its hypotheses.

## Plan per property

| id | model | proof |
|----|-------|-------|
| C01–C03 | `maxCliques`: the stack machine, one `step` per pass | stack machine = recursive enumeration; Bron–Kerbosch invariant; potential function 2^(|cand|+1)-1 per frame |
| C04–C09 | `findHeuristic1pc` on top of `maxCliques` of the complement | consequences of C01/C02; counting argument on cliques vs. independent set for C07; C08, C09 are false: counterexamples (5-cycle, 4-cycle) and exact characterisations as `_partial` |
| C10–C18 | `makeAux`, `rule1/2/3`, `reduzieren`, `chooseNbrhood`, `branch`, `findCliqueMinCover` | one inductive invariant over all reduction steps; budget argument for the outer loop; C13, C14, C17 are false: counterexamples by kernel evaluation plus `_partial` theorems; C14: ghost list of the states at which unsuccessful passes branch (`Model/EccTrace.lean`), lower bound by induction over the search tree (`Proofs/BranchMin.lean`) |
| C19–C26 | `UDG`, `RG`, `.nde` text | induction over operation lists; list/count lemmas |
| C27–C37 | `recoverUg`, `sfd`, `minPermDist` over an ordered field | algebra; `itertools.permutations` + Python `min` |
| C38–C44 | `sample.biadj`, `sample.mcm` with permutations/draws as arguments; module-level generators as state | counting; composition with C07/C15; C44 is false in general |
| C45–C53 | `dcov`, `estimateUDG`, `xicorr` over ℝ/ℚ | algebra; C45 false: exact relation proved |
| C54–C62 | `Gaussian.lean`: base class, `GaussianMCM` with optimizer/learner as parameters | case analysis over the attributes that are set; C56, C59, C61 are false: counterexamples |
| C63–C65, C78, C79 | `Dev.lean`: `DevMedil` | outcomes of the dispatch; algebra of the losses; C63 false |
| C66, C67, C80, C86, C87–C91 | `Ncfa.lean`: `NeuroCausalFactorAnalysis` as a state machine over a world (torch generator, files, log); optimizer, permutation and generators arbitrary | induction over batches, epochs and histories of calls; C66, C90, C91 false |
| C68, C81–C83 | `standardizeRow`, `randomSplit`, `dataLoader` | algebra of the column statistics; list lemmas; C68, C81 false |
| C84, C85, C92, C93 | `elboGaussian`, `reconError`, `ncfaRho`, `ncfaSigma` | real analysis (log, exp, determinants, operator norm); C84, C85, C92 false |
| C69–C71 | `Vae.lean`: `SparseLinear`, `Encoder`, `Decoder`, `VariationalAutoencoder` | induction over the layers; C69 false |
| C72, C94, C95 | `Visualize.lean`: `getDagFromBiadj`, `showDag` (the data given to networkx) | direct; reachability in the DAG; C95 false |
| C73–C75 | with C22, C45–C53 | found while proving C13/C22 and C45/C48 |
| C96, C97, C99 | as C10–C18; `Examples.lean` for the bundled examples | invariant over all reduction steps, every firing order of rule 2; private pairs give a lower bound and uniqueness; C99 additionally a checker that follows every firing order, proved sound for every set order |
| C100 | `maxIntersectNum` | Erdős–Goodman–Pósa and Lovász bounds on clique covers, proved in `Proofs/Bounds.lean`; C100 false: K5 minus two disjoint edges |
| C101, C102 | as C04–C18, C27–C32 | independence number is a lower bound; uniqueness from C96 |
| C103, C104 | `GState.sample`, `sampleMcm`; the generator is a hypothesis (`IdealDraws`: independent normal draws), shown satisfiable by an explicit product measure | linear images of Gaussian vectors stay Gaussian; uncorrelated = independent |
| C105 | `mleLoss`, `validationMle`, `fitMle` | false: explicit family of negative variances; on positive definite covariances `tr N − log det N ≥ m` by eigenvalues |
| C106, C107 | `lseLoss`, `fitLse`; the optimizer is arbitrary, "finds a global minimum" is a hypothesis in C106 | explicit exact fits (matrix square root, small cases); coercivity and compactness; the nuclear norm is defined by eigenvalues (`Spec/Nuclear.lean`), its continuity proved |
| C108, C109 | as C105–C107, `devLatents` | the Gram matrix determines the losses; Erdős–Goodman–Pósa bound, bipartite graphs for sharpness |
| C110–C112 | `xicorr`, `xicorTest`, `xiStat`, `xiVar` | the variance is a doubly centred sum of squares of `min(F_i,F_j)`; rank differences as sums of signs (`Proofs/XiRange.lean`); power sums for the closed form |
| C113–C117 | `dcov`, `estimateUDG` | centred distances are minus a Gram matrix of threshold indicators (`Proofs/Dcov.lean`), hence sign, Cauchy–Schwarz and trace bounds; C115 false |
| C118, C119 | `gaussianFit`, `minPermSquaredL2DistAbs` | products of covariances of two pure children and a third child fix each weight up to sign; C77 for the structure, the row bijection as matching |
| C120–C123 | `sfd`, `minPermDist`, `minPermDistPy` | Minkowski; composition of optimal matchings; squared difference of 0/1 entries is the indicator of a differing edge; C102 for one-pure-child structures |
| C124 | `dcov`, `estimateUDG` | distance covariance 0 makes the columns of the centred matrices orthogonal; indicators of values lie in their span; copies only shrink the diagonal term of C45 |
| C125 | `ncfaComputeBiadj`, `ncfaEstimateUdg` | composition of C124, C07 and the state update |
| C126 | `estimateUdgCov` | Chebyshev for averages of rows and of products of columns with tolerance `√(c log n / n)`; deterministic comparison with the threshold `-log n / n` |
| C127 | `gaussianFit` | C126 with C77 |
| C128 | `GState.sample`, `gaussianFit`, `sampleMcm` | C103/C104 give normal rows, whose fourth moments are those of a fixed normal law; then C127 |
| C129 | `gaussianFit`, `minPermDist` | explicit continuous formulas for the squared weights of pure children; the sublevel set of the objective is compact, so the minimum exists |
| C130 | `gaussianFit` | C129 on the event of C126 |
| C131, C132 | `ScriptSim.lean`: `causOrder`, `sampleGp` (`np.empty` is an arbitrary initial array) | induction over the removal loop; both false in general, exactly right iff every latent has at most one child |
| C133 | `randomB` with the element type of the array, `verifyGpRow` | ranks of the ones; truncation; false for integer and boolean arrays |
| C134 | `generateDataset` on a tape of draws | each column is a function of its own part of the tape; for dependence characteristic functions remove the noise, `artanh` the nonlinearity, covariance decides |
| C135 | `verifyPattern`, `triuCount`, `gpF1` | counting |
| C136 | `ScriptGrid.lean`: `calculateMetrics`, `gridLoop`, `gridSearch` | invariant over the cells; false: every cell fails |
| C137 | `foldStep`, `kfoldCell`, `gridSearchKfold` | induction over folds and cells |
| C138 | `foldStart`, `foldVal`, `foldTrain`, `kfoldSplit` | arithmetic of the fold boundaries |
| C139, C140 | `Dtypes.lean`: `intAssign`, `mcmInt`, `fitInt` | case analysis of the integer index; false: the two rows 0 and 1 are written |
| C141, C142 | `sfdNum`, `recoverUgNum`, `truncInt` | sums of products; C142 false |
| C143, C144 | `Float64.lean`: `rne`, `fl64` (round to nearest even, 53 bits), `trainSize64`, `numEdges64`; `isqrt64` for C100 | relative error 2^-53, then integer arithmetic; both false by one unit |
| C145 | `maxCliques` of `MaxCliques.lean` (unchanged) | `Proofs/MoonMoser.lean`: potential of the stack (sum over entries of a multiple of 3^(k/3), k candidates), decreased by every pass by the choice of the pivot; equality for complements of disjoint triangles |
| C146, C147 | `weightsFrom` of `SampleReal.lean` (`mcm` with real draws), `GState.sample`, `gaussianFit` | sampling theorem plus C130 for C146; Fubini (one draw given the others solves an affine equation) for C147, then C128 |
| C148, C149 | `ScriptBench.lean`: `benchGraph`, `deepDive`, `deepDiveKfold`, `devFitPy` (penalties that may be `None`) | from C136 (no cell of the search succeeds), C138 (the folds exist); induction over the list of structures |
| C150-C154 | `AdamW.lean`: one step of torch's AdamW entry by entry, StepLR, `kaiming_uniform_`, as an instance of the arbitrary optimizer of `Ncfa.lean`; gradients arbitrary (C150: zero where the loss does not depend on the weight) | invariants of the training loop including the optimizer state; second moment bounds the first (m² ≤ 53.29 v), the bias corrections shrink the step, the learning rates sum to at most 500·lr; C154 from C151, C153, C98; C152 from C81 |
| C155 | `EccCost.lean`: `find_clique_min_cover` with a counter of the calls of `branch` | equal to the model without counter; induction over the nesting with C145 (cliques per neighbourhood), C10 (passes) |
| C156, C157 | `Interrupt.lean`: `NeuroCausalFactorAnalysis.fit` as a list of effects (attribute assignments, log lines, opening and closing of result files), a prefix of which happens | the whole list equals `ncfaFit` of `Ncfa.lean` (C156_all_effects); case analysis of prefixes; counterexample for C156; effects do not depend on what earlier calls left (C157) |
| C158, C159 | `InterruptGaussian.lean`: the assignments of `GaussianMCM.fit`, a prefix of which happens | the whole list equals `gaussianFit`; prefixes; counterexamples |
| C160 | `ScriptKernel.lean`: `compute_gauss_kernel` | Schur product theorem and the exponential series; definiteness by separating points and a Vandermonde argument |
| C161 | `Dev.lean`, `sample`; the generator by its distribution | linear images of normal arrays (`NormalRows.lean`) |
| C162 | `Dev.lean`, the vector given to the optimizer | by cases on `init_W`; the losses are specified as in C65 |
| C163 | `ScriptGrid.lean`, `calculate_metrics` | C33 (least matching), C27-C29 (`sfd`) |
| C164 | `DevInit.lean`: `fit_penalized_mle` with `init_W` of any size, slicing and broadcasting | case analysis of the broadcast shapes; counterexample |
| C165 | `Gaussian.lean`: `GState.sample` without parameters (`multivariate_normal` with an empty mean is a `ValueError`), `fitAll` | induction over the history; structures found by the heuristic are not empty |
| C166 | `Dev.lean`: `validationMle`, `validationLse` with numpy broadcasting | case analysis over the shapes |
| C167 | Power of `dcov_fast`. `IIDRows` (Spec/Prob.lean) is the vocabulary. The sample distance covariance is bounded below by the squared covariance of two ramps (a Gram representation and Cauchy-Schwarz); two dependent variables have correlated ramps (dominated convergence and the half-lines as a generating pi-system); the rest is Chebyshev's and Markov's inequality. |
| C168 | Exact mean of the statistic over all permutations of a column, Markov's inequality, and exchangeability of independent columns. |
| C169 | Exact second moment of the statistic over all permutations (patterns of four indices), Cantelli's inequality, exchangeability, and bounds in probability for the mean distance and the second moments. |
| C170 | First and second moments of a sum over the edges of a path under a uniform permutation (patterns of two to four indices), with the signed ranks in closed form. |
| C171 | False for discrete data: mean from C170 bounded away from 0, variance at most 32/n, the estimated variance at most 256, exchangeability. For atomless laws: exact variance, Cantelli's inequality. |
| C172 | Total variation of a bounded sequence that is monotone on k pieces, by a telescoping potential; lower bound of the denominator. |
| C173 | C169 for the graph, C125 for the structure of a correct graph; normal rows with the same moments have the same law (characteristic functions). |
| C174 | The excess of mean distance of midranks over neighbouring distances: ranks are near their limits (uniform distribution functions by thresholds), neighbours in the order of x have nearly independent y given x (resampling of the rows, step functions of bounded variation), so the excess is a sum of squared covariances of indicator functions, zero for all levels only for independent columns. |
| C175 | C174 for the graph, C125 for the structure; normal columns with positive variance have no atoms. |
| C176 | The ranks of independent uniform variables are a random order. The statistic is close in mean square to a sum over neighbouring variables of degenerate parts of their distances (exact second moments); this sum is close to a sum over separate blocks, which are independent; the central limit theorem of Mathlib for the blocks, Levy's theorem and the portmanteau theorem give the limit; exchangeability carries it over to every law. |
| C177 | Count the triples of permutations (edge vector, non-pure columns, all columns) that give a fixed matrix: choose the pure child of every latent, match the other columns, count the permutations that carry a subset onto a subset; divide by the number of triples. |
| C178 | False; exact criterion from C177 and a counterexample with 2 latents and 4 measurements. |
| C179 | The permutations with a given graph are those that carry the first E positions onto its edges: E!(N-E)! of N!. |
| C180 | Model with all sizes free (Model/GaussianAny.lean): attributes are arrays of any width, the subtraction in the objective follows numpy's broadcasting. Invariant over histories: parameters belong to the structure, means to the last dataset. The claim is false; the exact behaviour is proved. |
| C181 | Every parameter is a function of its own draws (positions of the mask are distinct), so independence and laws carry over; symmetric laws have mean zero; products of independent weights have mean zero. |
| C182 | The claim is false: a dataset and structure without a minimum, explicit minimising sequence and a lower bound for bounded weights. With at most two children per latent the weights of the first latent over each pair are chosen freely; near a three-indicator model the sublevel set is compact. |
| C183 | Mean, covariance and hence `estimate_UDG` and the fit are symmetric sums over the observations; the xi statistic of reordered data sorts the same way when x has no ties. The claim is false with ties in x: a counterexample for every sorting algorithm. |
| C184 | The claim is false for both algorithms (two computed runs). Proved: same number of latents whenever the heuristic returns (independence number is invariant), the same structure for one-pure-child and privately witnessed structures (C07, C15, C96 on the renamed graph), the estimated graph, `fit` and the least squares problem commute with renaming. |
| C185 | The claim is false: one latent, four children, with the exact least squares solution (sum of squares certificate) and an explicit better competitor after doubling a column. Proved for a common factor, for solutions that reproduce all explainable covariances, and for `fit` on model covariances. |
| C186 | The standardized rows are the same (C82), hence the split, the loaders, the training and everything stored. |
| C187 | `xicorr` depends only on ranks (C51), `dcov_fast` is affine invariant (C47); hence graph, p-values and `_compute_biadj`. |
| C188 | The sample covariance is the only use of the data; reindexed matrices have the same determinant, inverse, trace, Frobenius and (characteristic polynomial) nuclear norm. |
| C189 | Claim of CHANGELOG.md, false of the code. Specification: bivariate normal densities, likelihood, criterion. The minimum over all distributions is computed (a determinant inequality and `log x <= x - 1`; for proportional samples a sequence of distributions), which turns the preference into `1 - r^2 < exp(-log n / n)`; the code uses `r^2 * sd_i * sd_j` in the place of `r^2`. |
| C190 | Claim of docs/index.rst, false of the code. `HeuristicCost.lean` counts the passes of the clique search; disjoint triangles have 3^m maximal independent sets, and 3^m outgrows every polynomial; upper bound by C145. |
| C191, C192 | `InterruptDev.lean`: the changes of a call one after the other; a call interrupted after k of them. C191 is false; C191_partial describes every interruption point; C192 by the same case distinction, histories by induction. |
| C193, C194 | `Pool.lean`: the process pool of `estimate_UDG` as interleaved steps of workers and result handler (`IMapIterator._set`), kill steps included. C193: invariant on released results, potential function for termination, deadlock-freedom; refinement to `estimateUDG`. C194 is false (a lost chunk stays lost, by invariant); C194_partial. |
| C195, C196 | `Spec/Chordal.lean`; Dirac's theorem (`Proofs/Dirac.lean`: every vertex set of a chordal graph has a simplicial vertex). `Proofs/Elim.lean`: without K4 the subtraction of rule 1 is exact, so rule 2 fires until no edge is left; then C14_exact_minimum_partial. C195 is false (chordal graph with K4). |
| C197-C199 | `Rounded.lean`: `dcov`, the `dcov_fast` graph and `_estimate_udg` over an arbitrary floating-point arithmetic (`FloatLib`: any operations, any summation trees, fused multiply-add). `Spec/Rounded.lean`: accuracy `ε`. C197 for all arithmetics. C198, C199: error bound of summation trees by induction, every computed quantity converges along ever more accurate arithmetics, contradiction. Rounding to double (`fl64`) shown to be an instance. |
| C200 | `RoundedXi.lean`: `_xicorr` and `xicorr` operation by operation over an arbitrary floating-point arithmetic (exact half-integer ranks, numpy's sorts as permutations, `norm.cdf`). False for constant columns: v is exactly zero, so its computed sign is rounding error (`C200_constant_column`: for every ε an arithmetic of that accuracy; `C200_double_precision`: IEEE doubles with four and five rows, evaluated by the kernel over the rationals). Proved part: along ever more accurate arithmetics every intermediate quantity converges (sorting is continuous), v > 0 for a column that varies. |
| C201 | `HeapSearch.lean`: the search with arrays as addresses in a memory (`copy` and array-building functions allocate, selections write in place, attributes hold addresses). A simulation (`Proofs/HeapSearch.lean`): every method changes only arrays the object owns, and computes what the value model computes, by induction on passes, depth and cliques. This justifies the value model used everywhere else. |
| C202 | Same simulation, following which address is returned. False for graphs with vertices and no edges (the argument comes back). |
| C203 | `HeapGraph.lean`: histories of method calls on a copy. Frame rule of the simulation, induction on the history. False for copies of copies (`reduced_away` is shared). |
| C204 | Sessions with arrays and objects that refer to them; induction on the history with distinctness of the arrays as invariant. False if two objects share an array. |
| C205 | Graph objects with the attributes that `make_aux` set and nobody updates; induction on the history. False after an edit; attributes that a failed `make_aux` left behind. |
| C206 | Two runs of a history, with and without removing edges from the original in between; relational induction. False because `rule_1` reads `unreduced.adj_matrix`. |
| C207 | `HeapCliques.lean`: the generator as an object with its sets and its list as cells of a memory (changed in place), in sessions with any number of generators, arrays and lists handed out. Simulation of the value model pass by pass (the cells of a generator are distinct, only they are changed), then induction on the history with an owner for every cell as invariant. |
| C208 | Same. False because of lazy evaluation. |
| C209 | `Model/NcfaFit`: `addLog` writes the log file and, if verbose, standard output. Case analysis on the outcome of `fit`. |
| C210 | `Model/FloatGraph`: the search with a float number of vertices, `np.zeros(float)` raises. Simulation with the integer search; counted calls of `branch`. False. |
| C211–C212 | `Model/IntWidth`: integer types with wrap-around arithmetic. All operations commute with reduction modulo 2^bits; bounds on the exact values. False for small types. |
| C213, C214 | `elboGaussian`, `ncfaFit`. C213: AM-GM in the form q - 1 - log q ≥ 0, equality case; false. C214: without noise (C66) only the divergence depends on the layer; its derivative. |
| C215 | `Model/FloatMinPerm` over the arithmetics of `Model/Rounded`; standard model of rounding in `Spec/FloatMinPerm`. Induction over the summation tree. |
| C216, C217 | Same models; laws of NaN in `Spec/NanLaws`. NaN propagates through every summation tree; comparisons with it are false. |
| C218 | `Model/Ecc` with any diagonal. Invariant of the reduction loop: one edge keeps score 0 and is never covered. |
| C219 | `Model/Rounded`; relative error model in `Spec/DcovError`. Error calculus: a float is within ((1+u)^k - 1) times a magnitude of its exact value; rules for each operation, sums and inner products by induction over the tree. |
| C220 | `Model/MaxCliques`, `Model/Heuristic` on matrices that need not be symmetric. Invariant of the search: the path is ordered by out-neighbourhood; until the first yield no vertex is excluded. |
| C221 | as C220. For a matrix without directed cycles the pivot is always joined to all candidates of the complement, so the only list yielded has all vertices. |
| C222 | `Model/Sample` (slices with negative ends). Count of ones as in C39, C42 without the bounds on the density. |
| C223, C224 | `HeapGaussian.lean`: attributes of `GaussianMCM` as references into a memory of arrays that the user overwrites in place (same dtype and shape). A simulation shows `fit` and `sample` compute what they compute on values; frame lemmas by induction on histories. |
| C225, C226 | `Levels.lean`: `estimate_UDG` with the critical value as a float that may be infinite or nan. `chi2(1).ppf` is any function with the defining property of the quantile of the square of a standard normal variable (existence proved by right-continuity of the distribution function). |
| C227 | `Default.lean`: the statistic is at most (N-1)/2 (Cauchy-Schwarz over the pairs of different rows, the diagonal of the centred distances sums to -N times the mean distance), attained by a 0/1 column; the 0.95-quantile lies in (3.84, 3.8416] (`Proofs/Chi2.lean`: Taylor bounds of exp(-t) integrated, bounds for pi). |
| C228 | `NonFinite.lean`: an infinite value makes every distance in its row, every column mean and the mean of all distances plus infinity or nan, the double centring subtracts two of these and gives nan; for `np.cov` the centred infinite value is nan; every permutation's distance is plus infinity or nan and `min` keeps the first. Laws in `Spec/InfLaws.lean`, an arithmetic that satisfies them in `Ieee.lean`. |
| C229 | `NonFinite.lean`: the ranks of a column and of its negation are functions of the comparisons; everything else is computed from ranks. |
| C230 | False. `NonFinite.lean`: the p-value is nan if the second column has a nan (`cu` is nan); for the first column only `argsort` of its ranks is used. The counterexample takes the order `argsort` gives an array of nan as second column and C172, C200. |
| C231 | False. `Model/Device.lean` gives every tensor a device: `model.to(device)` moves what `parameters()` lists (`PyObj`), masks and hidden layers stay on the CPU; every operation of a forward pass checks devices. On the CPU no check fails, by induction over layers, batches and epochs; on a GPU the first masked layer fails. |
| C232 | False. `Model/HeapNcfa.lean`: networks in memory, objects with references and views, histories of fits and edits; invariants: view and network agree, references of different objects differ. The counterexample composes strictly monotone maps (sigmoid, nonzero weights). |
| C233 | False. `Model/PvalArray.lean`: flat arrays, `fill_diagonal` with its step; multiples of the step are the positions with equal indices (numbers with equal digits in base n). |
| C234 | `Model/Threads.lean`: threads with program counters on shared objects, one read, assignment or draw per step, arbitrary schedule; simulation of each thread by itself alone, then by the sequential session (C76). |
| C235 | False. Same model; invariant: every attribute and every local variable comes from one of the datasets, and zeroed weights have a thread that is about to fill them. |
| C236 | False. `Model/Processes.lean`: the effects of several calls of `fit` (those of C156) interleaved by a schedule, files with a set of writers; invariant over the schedule (written effects are in the done part, open files belong to the next effect). |
| C237 | `xicorTest`, `estimateUDG`, `ncfaComputeBiadj` | `XiSmall.lean`: without ties neighbouring ranks differ by at least one, so the statistic is at most (n-2)/(n+1); with the variance without ties the argument of Φ is below 1.63 for n ≤ 5 and at least 2 for n ≥ 6; Φ(1.63) < 0.95 < Φ(2) by the Taylor bounds of `Proofs/Chi2.lean`. |
| C238 | `VisualizeMat.lean`: the data `show_obs_dcor_mat` hands to matplotlib | membership in the lists, case analysis of the clamp to [0,1]. |
| C239 | `ParamText.lean`: attributes as an ordered dictionary, the assignments of the two `fit`s | induction over the history. |
| C240 | `estimateUDG`, `ncfaComputeBiadj` | `FewRows.lean`: C227 and C125; the empty graph is the dependence graph of one latent per measurement. |
| C241 | `GProc` of C234 | `ThreadsLearn.lean`: an invariant over all schedules. Structure and graph are either not yet stored or those learned; between the test and the assignment a call holds the one graph and the one structure there are; after the parameters are stored they are those of that structure and that dataset. |
| C242 | `GProc` of C234, `MvnGen` | `ThreadsSample.lean`: an invariant over all schedules: the objects are as at the start, every generator state is reached by draws, a call holds latents and errors drawn at such states. `SampleOf` and `SampleResult` are the specification. |
| C243 | `GProc` of C234 | `ThreadsRefit.lean`, `ThreadsMixed.lean`: invariants over all schedules: structure unchanged and the parameters present, with weights of the shape of the structure; `fill` finds as many values as places. |
| C98 | `Vae.lean` | layer formulas; sigmoid is between 0 and 1 |
| C76, C77 | `Session.lean`: histories of calls over several objects that share the module's generator | induction over the history; composition with C07; C76 false |

For a property that is false of the code, `Cxx_statement` (or the hypothesis of `Cxx_false`) keeps the
full statement in view, `Cxx_false` proves its negation with a concrete counterexample, and
`Cxx_…_partial` proves the strongest version found that is true. The causes:

| id | why the claim fails in the code |
|----|------|
| C08, C09 | the one-pure-child heuristic drops edges/cliques on graphs that are not 1pc graphs (cycle 5, cycle 4) |
| C13 | covers found after a rule-3 deletion are returned without reconstruction (`return branch_graph.the_cover`), so edges of the deleted vertex are lost; the depth cap returns unfinished covers (C18: no other cause) |
| C14 | `choose_nbrhood` offers the cliques of the *uncovered* graph only: a clique of the graph some of whose pairs are already covered is never tried; C14_only_cause_partial: no other cause |
| C73 | `rule_1` subtracts the count of an edge between two vertices deleted together twice; scores only get larger, so rule 2 fires less often but never wrongly |
| C17 | zero diagonal: `ValueError` |
| C37 | integer dtype truncation in the padding |
| C44 | `mcm` does not forward `rng` to `biadj` |
| C45, C74, C75 | distance covariance factor and diagonal; constant column gives p=0; xi is not symmetric |
| C56 | second `fit` keeps the structure of the first |
| C59 | negative error variances (Heywood) are not excluded |
| C61 | product of covariance and correlation depends on the units |
| C63 | `sample` reads attributes that `fit` does not set |
| C66 | `model.eval()` is never undone: only the first epoch trains with noise |
| C68 | with `split_idcs` the raw rows are used |
| C69 | hidden layers live in a plain dict: not in `parameters()`, never trained |
| C105 | error variances are unconstrained in `fit_penalized_mle` |
| C106 | `abs` is applied to the error variances after the optimisation but not in the objective, so a minimum with a negative variance is stored as another model |
| C152 | `fit` never reads `biadj` or `udg`; the weights are those of a fully connected layer |
| C156 | the three files are overwritten in place one after the other |
| C158 | `error_means`, `error_variances`, `biadj_weights` are assigned one after the other, and the weights first with zeros |
| C159 | the structure learned by an interrupted call is kept and used by the next |
| C164 | a `1 × 1` matrix `D` is broadcast to all entries of `W'W` |
| C166 | `np.cov` of one column is 0-dimensional; `1 × 1` operands are broadcast |
| C115 | the pairs `k = l` are left out of the sum (see C45) |
| C76 | the default `rng` is one module-level object |
| C81 | torch's generator is never seeded |
| C84 | epoch loss is the average of batch averages |
| C85 | determinant in place of log determinant |
| C90 | `path + "training.log"` without separator |
| C91 | default `path` is shared by all objects |
| C92 | squares in place of absolute values |
| C95 | undefined names `get_adj_from_incidence`, `pd` |
| C131, C132 | `biadj_to_adj` is symmetric, so `compute_caus_order` counts children as well as parents; `X` starts as `np.empty` |
| C133 | coefficients are assigned into a copy of an integer array |
| C136 | `calculate_metrics` reads `W_hat_mle`/`W_hat_lse`; `fit` sets `W_hat` |
| C139, C140 | `W[biadj] = w` with an integer `biadj` selects rows, not entries |
| C142 | `astype(int)` truncates weights to 0; `W.T @ W` can be 0 for pairs with common parents |
| C143 | the double 0.7 is less than 7/10, so `floor(0.7 * 90)` is 62 |
| C148 | `grid_search` reports `None` (C136), and `None * number` is a `TypeError` |
| C149 | the metrics read attributes that `fit` never sets, so the lists that are averaged are empty |
| C144 | the product is rounded to 3.5 before `np.round` |
| C100 | `t` must satisfy `t(t-1) ≤ p`, the code takes `t² ≤ p` |
| C171 | `xicorr` ranks with `rankdata(..., method="average")`, while Chatterjee's statistic needs maximum ranks for tied values: the mean of the statistic under independence is positive, so the p-value of independent columns with few values tends to 0 |
| C178 | the pure children are fixed first and the other measurements choose a latent independently, so structures with even numbers of pure children are more likely |
| C180 | `cov - W.T @ W` broadcasts for one column or one measurement; `error_means` is assigned before the optimizer evaluates the objective, so a rejected dataset spoils `sample` |
| C182 | one latent, covariances c12 = c13 > 0 = c23: the objective tends to 0 as w1 grows and w2, w3 shrink, but is never 0 |
| C183 | x = 0,0,1 and y = 0,1,2: the tie in x is broken by the row position, so exchanging rows 0 and 1 changes xi |
| C184 | `missGraph`: two latents, three after exchanging measurements 0 and 1 (reduction rule 3 deletes other vertices); path 0-1-2-3: the heuristic returns, and raises TypeError after exchanging 2 and 3 |
| C185 | covariances 8/9 within {0,1}, {2,3} and 2/3 otherwise: all weights equal is best; after doubling column 0 the rescaled weights are beaten by increasing the weight of column 1 by a tenth |
| C189 | observations (0, 0) and (0.1, 1): correlation 1, but covariance times correlation is 0.05 |
| C190 | m latents with three children each, none shared: 3^m maximal independent sets, and the heuristic lists them all |
| C191 | `W_hat` and `D_hat` are assigned one after the other |
| C194 | `multiprocessing.Pool` replaces a killed worker but not its task; `imap` waits for the missing chunk forever |
| C195 | rule 1 subtracts the edge between two isolated common neighbours twice, so rule 2 misses an edge whose common neighbourhood is a clique, and rule 3 deletes one of its ends |
| C200 | a constant later column: v = 0 exactly, and the sign of its rounding error decides between p = 0 (edge) and p = nan (no edge); in doubles, four rows give an edge and five do not |
| C202 | no edges, at least one vertex: the caller's own array is returned |
| C203 | the graph with edges 0-1 and 2-3: rule 3 and rule 1 on a copy, then rule 3 on a copy of that copy writes into the `reduced_away` of the first |
| C204 | two objects made from one array, an edge removed through one of them |
| C205 | the triangle: `make_aux`, `rm_edges`, `reducible_copy` |
| C206 | the triangle: two edges of the copy covered, rules 1 and 2, with and without an edge removed from the original before |
| C208 | an array without edges, `max_cliques`, all edges added in place, `next`: the whole vertex set |
| C210 | the octahedron as a float array: `np.trace` is a float, so `np.zeros` in `branch` raises `TypeError` |
| C211 | 256 latents with two common children in `uint8`: the product wraps to 0 and the edge is missing |
| C212 | `[[16]]` and `[[0]]` in `uint8`: distance 0 instead of 256 |
| C213 | one measurement with residual 2: variance 4 has a larger loss than 2 |
| C218 | a vertex with diagonal 0 is in none of the rows of its own edges, so rule 2 adds a row that covers nothing, for every budget |
| C221 | in one triangle every measurement seems independent of the later ones in some order, so each becomes a latent; with the whole matrix an edge joins two |
| C222 | five measurements of two latents with density -1/5: two of the three free positions are used |
| C224 | the user clears the array passed as `biadj` between constructor and `fit` |
| C226 | two equal columns with two observations: joined by dcov_fast at level 1, not at level 2 |
| C230 | a column of nan followed by a column that increases along the order in which `argsort` puts an array of nan: joined in every sample that is large enough |
| C231 | any fit that returns on a CPU, with the default settings: RuntimeError in the first forward pass on a GPU |
| C232 | a network with all weights 1: setting an entry of `parameters.weights` to 2 changes the log-variance of a row |
| C233 | a 2 × 3 array of p-values for a sample with four columns is accepted |
| C235 | first thread reads the mean of its dataset; second thread does its whole call; first thread continues, reading the second dataset |
| C236 | process 0 saves its network, process 1 makes its whole call with the same path, process 0 saves its histories |

## Modelled and not modelled

Modelled: `ecc_algorithms.py`, `graph.py` (all), `evaluate.py`, `sample.py`, `independence_testing.py`,
`models.py` (all classes), `vae.py`, the worker processes of `estimate_UDG` (C193, C194), threads that share `GaussianMCM` objects (C234, C235), processes that share a directory (C236), `examples.py`, `visualize.py` (the data handed to matplotlib and networkx), `str` of the parameters, the `.nde` export,
`scripts/developing.py` (simulation, verification scores, grid search, cross-validation; benchmark drivers; and the unused `compute_gauss_kernel`; not plotting and printing).
As it stands, loading that script ends with a `NameError` at line 760 (`Tuple` is not imported), so `verify_independence_pattern_GP` is modelled as if the import was there.

Not modelled: rendering (`plt`, `sns`), printing (except C209), pickle formats, wall-clock timestamps in
logs, GPU devices (except C231), gradients (in C150-C154 the optimizer is AdamW with arbitrary gradients; elsewhere an arbitrary function of batch, weights and its own state that changes
only the tensors it was given), numerical optimizers (arbitrary results), float rounding (except where a float becomes an integer: C143, C144, `C100_sqrt_exact`; and in the estimated graphs and weight distances: C197-C200, C215-C219, C228-C230), `scripts/pgm_demo.py`, `docs/`. `width ≥ 1` is assumed for the VAE where stated.

## Trusted base

Lean's kernel; axioms at most `propext`, `Classical.choice`, `Quot.sound`; the reading of the Python
code recorded in the model's comments (nothing links the model to the code mechanically).

`AXIOMS.md` lists the axioms of every property theorem, as printed by `#print axioms`.
