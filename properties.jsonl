{"id": "C01", "title": "max_cliques yields only maximal cliques", "statement": "Every list yielded by max_cliques(A) for a symmetric adjacency matrix A (the diagonal is ignored) has no repeated vertex, its vertices are pairwise adjacent, and no further vertex is adjacent to all of them.", "quantifier": "every size, every symmetric matrix, every order in which Python sets iterate and pop, every yielded value", "why_tests_cant": "CPython's set order is not part of the language and the number of graphs is infinite; a test sees one order of a few graphs.", "anchors": ["medil/ecc_algorithms.py:max_cliques"]}
{"id": "C02", "title": "max_cliques yields every maximal clique, exactly once", "statement": "For a symmetric matrix every maximal clique appears among the yielded lists, as a vertex set, exactly once.", "quantifier": "every size >= 1, every symmetric matrix, every set iteration/pop order, every maximal clique", "why_tests_cant": "CPython's set order is not part of the language and the number of graphs is infinite; a test sees one order of a few graphs.", "anchors": ["medil/ecc_algorithms.py:max_cliques"]}
{"id": "C03", "title": "max_cliques always finishes", "statement": "Iterating max_cliques(A) to exhaustion ends after finitely many passes of its `while True` loop, for any matrix, and no exception escapes.", "quantifier": "every size, every 0/1 matrix (also asymmetric), every set order", "why_tests_cant": "Termination on all inputs cannot be observed by finitely many runs.", "anchors": ["medil/ecc_algorithms.py:max_cliques"]}
{"id": "C04", "title": "find_heuristic_1pc covers every dependence", "statement": "Whenever find_heuristic_1pc(udg) returns, for every pair of dependent measurements there is a latent (row) that is a parent of both.", "quantifier": "every size, every symmetric matrix, every set order, every edge", "why_tests_cant": "CPython's set order is not part of the language and the number of graphs is infinite; a test sees one order of a few graphs.", "anchors": ["medil/ecc_algorithms.py:find_heuristic_1pc"]}
{"id": "C05", "title": "find_heuristic_1pc: one pure child per latent, independence-number many latents", "statement": "Whenever find_heuristic_1pc(udg) returns, each latent has a measurement whose only parent it is, and the number of latents equals the size of a largest independent set of udg.", "quantifier": "every size, every symmetric matrix, every set order, every row", "why_tests_cant": "Optimality (no larger independent set exists) is a statement about all vertex subsets.", "anchors": ["medil/ecc_algorithms.py:find_heuristic_1pc"]}
{"id": "C06", "title": "find_heuristic_1pc gives every measurement a parent", "statement": "Whenever find_heuristic_1pc(udg) returns, every measurement (also an isolated one) is the child of at least one latent and every latent has a child.", "quantifier": "every size, every symmetric matrix, every set order, every column", "why_tests_cant": "CPython's set order is not part of the language and the number of graphs is infinite; a test sees one order of a few graphs.", "anchors": ["medil/ecc_algorithms.py:find_heuristic_1pc"]}
{"id": "C07", "title": "find_heuristic_1pc recovers every one-pure-child structure", "statement": "If udg is the dependence graph of a biadjacency matrix B in which every latent has a pure child and every measurement a parent, find_heuristic_1pc(udg) returns normally and its rows are exactly the rows of B, up to the order of the latents.", "quantifier": "every B of every shape with the one-pure-child property, every diagonal convention of udg, every set order", "why_tests_cant": "Exact identifiability for all structures and all tie-breakings of the maximum independent set.", "anchors": ["medil/ecc_algorithms.py:find_heuristic_1pc", "medil/sample.py:biadj"]}
{"id": "C08", "title": "find_heuristic_1pc returns for every dependence graph", "statement": "find_heuristic_1pc(udg) returns a cover, without raising, for every symmetric udg with at least one measurement.", "quantifier": "every size >= 1, every symmetric matrix, every set order", "why_tests_cant": "The failing inputs are those whose maximum independent set leaves an edge uncovered; the shipped tests contain none.", "anchors": ["medil/ecc_algorithms.py:find_heuristic_1pc"]}
{"id": "C09", "title": "find_heuristic_1pc implies exactly the given dependences", "statement": "The dependence graph implied by the returned biadjacency matrix has the same edges as udg.", "quantifier": "every size, every symmetric matrix on which it returns", "why_tests_cant": "Needs all graphs; false on some, so a sample can miss it.", "anchors": ["medil/ecc_algorithms.py:find_heuristic_1pc", "medil/evaluate.py:recover_ug"]}
{"id": "C10", "title": "find_clique_min_cover terminates without raising", "statement": "For every symmetric adjacency matrix with unit diagonal and at least one vertex, find_clique_min_cover returns a matrix: its search loop ends, every inner loop ends, and no exception is raised.", "quantifier": "every size >= 1, every such matrix, every set order, every branch of the search", "why_tests_cant": "The outer `while the_cover is None` has no bound; only a proof shows it stops.", "anchors": ["medil/ecc_algorithms.py:find_clique_min_cover", "medil/ecc_algorithms.py:branch", "medil/graph.py:ReducibleUndDepGraph"]}
{"id": "C11", "title": "Every row of find_clique_min_cover is a clique", "statement": "Any two children of the same row of the returned matrix are adjacent in the input graph.", "quantifier": "every size, every symmetric unit-diagonal matrix, every set order, every row", "why_tests_cant": "CPython's set order is not part of the language and the number of graphs is infinite; a test sees one order of a few graphs.", "anchors": ["medil/ecc_algorithms.py:find_clique_min_cover", "medil/ecc_algorithms.py:branch", "medil/graph.py:ReducibleUndDepGraph.rule_2", "medil/graph.py:reconstruct_cover"]}
{"id": "C12", "title": "find_clique_min_cover gives every measurement a latent", "statement": "Every column of the returned matrix has a 1 and every row has a 1.", "quantifier": "every size, every symmetric unit-diagonal matrix, every set order", "why_tests_cant": "CPython's set order is not part of the language and the number of graphs is infinite; a test sees one order of a few graphs.", "anchors": ["medil/ecc_algorithms.py:add_isolated_verts", "medil/ecc_algorithms.py:find_clique_min_cover"]}
{"id": "C13", "title": "find_clique_min_cover covers every edge", "statement": "Every edge of the input graph is contained in some row of the returned matrix (it is an edge clique cover).", "quantifier": "every size, every symmetric unit-diagonal matrix, every set order, every edge", "why_tests_cant": "Fails only on graphs needing rule 3 or a deep search; the bundled examples need neither.", "anchors": ["medil/ecc_algorithms.py:find_clique_min_cover", "medil/ecc_algorithms.py:branch", "medil/graph.py:ReducibleUndDepGraph.rule_3"]}
{"id": "C14", "title": "find_clique_min_cover is minimum", "statement": "No edge clique cover of the input graph (including isolated vertices) has fewer cliques than the returned matrix has rows.", "quantifier": "every size, every symmetric unit-diagonal matrix, every set order, every competing cover", "why_tests_cant": "Optimality ranges over all competing covers.", "anchors": ["medil/ecc_algorithms.py:find_clique_min_cover", "medil/ecc_algorithms.py:branch"]}
{"id": "C15", "title": "find_clique_min_cover is exact on one-pure-child graphs", "statement": "If the graph is the dependence graph (with unit diagonal) of a matrix B in which every latent has a pure child and every measurement a parent, the returned rows are exactly the rows of B up to order, whatever the set iteration order, and so agree with find_heuristic_1pc up to order; this number of rows is minimum.", "quantifier": "every B of every shape with the property, every set order", "why_tests_cant": "All structures and all orders.", "anchors": ["medil/ecc_algorithms.py:find_clique_min_cover", "medil/ecc_algorithms.py:find_heuristic_1pc"]}
{"id": "C16", "title": "Edgeless graphs", "statement": "On a graph with n >= 1 vertices, unit diagonal and no edges find_clique_min_cover returns the input matrix, whose rows are the n singletons.", "quantifier": "every n >= 1, every set order", "why_tests_cant": "All sizes.", "anchors": ["medil/ecc_algorithms.py:find_clique_min_cover", "medil/graph.py:make_aux"]}
{"id": "C17", "title": "find_clique_min_cover accepts estimated dependence graphs", "statement": "find_clique_min_cover terminates and returns a matrix on graphs as returned by estimate_UDG and GaussianMCM (whose diagonal is 0).", "quantifier": "every zero-diagonal symmetric matrix", "why_tests_cant": "Non-termination is not observable by a finite test.", "anchors": ["medil/ecc_algorithms.py:find_clique_min_cover", "medil/independence_testing.py:estimate_UDG"]}
{"id": "C18", "title": "When the exact cover is complete", "statement": "The matrix returned by find_clique_min_cover covers every edge if and only if the successful search path never deleted a vertex by reduction rule 3 and did not end at the depth cap; reconstruction of rule-3 vertices never happens in find_clique_min_cover.", "quantifier": "every size, every symmetric unit-diagonal matrix, every set order, every search path", "why_tests_cant": "All search histories.", "anchors": ["medil/ecc_algorithms.py:branch", "medil/graph.py:ReducibleUndDepGraph.rule_3", "medil/graph.py:reconstruct_cover"]}
{"id": "C19", "title": "get_idx and get_edge are inverse", "statement": "get_edge(get_idx((u,v))) == (u,v) for u < v, and get_idx(get_edge(i)) == i for every row index i < n(n-1)/2.", "quantifier": "every n, every vertex pair, every index", "why_tests_cant": "All sizes.", "anchors": ["medil/graph.py:make_aux"]}
{"id": "C20", "title": "make_aux describes the graph", "statement": "After make_aux the row of an edge holds exactly the common closed neighbours of its ends, rows of non-edges are zero, the edge count of a row is the number of edges among those neighbours, and the score n_choose_2(row) - count is 0 exactly when they form a clique.", "quantifier": "every size, every symmetric unit-diagonal matrix, every pair", "why_tests_cant": "All graphs.", "anchors": ["medil/graph.py:make_aux"]}
{"id": "C21", "title": "Edge edits keep the graph consistent", "statement": "After any sequence of add_edges / rm_edges on a symmetric graph the matrix is symmetric, num_edges is the number of edges, every pair's state is that of its last edit, and the diagonal of untouched vertices is unchanged.", "quantifier": "every size, every initial symmetric matrix, every finite sequence of edits", "why_tests_cant": "All histories.", "anchors": ["medil/graph.py:UndirectedDependenceGraph.add_edges", "medil/graph.py:UndirectedDependenceGraph.rm_edges"]}
{"id": "C22", "title": "Reduction state stays coherent", "statement": "Along any sequence of rule_1, rule_2, rule_3 and cover_edges starting from a reducible copy, the working matrix is a symmetric subgraph of the input, the list of extant edges is exactly its edge set without repetition, num_edges is their number, num_vertices is the number of vertices not deleted, and common-neighbour rows never mention a deleted vertex.", "quantifier": "every size, every symmetric unit-diagonal matrix, every set order, every finite sequence of reduction steps", "why_tests_cant": "All histories of reductions.", "anchors": ["medil/graph.py:ReducibleUndDepGraph"]}
{"id": "C23", "title": "rule_2 adds a clique and makes progress", "statement": "When rule_2 fires (in any state reachable by the reduction steps) it appends exactly one row, which is a clique of the input graph containing an uncovered edge; all pairs inside the row are covered afterwards, no other pair changes, and the clique budget drops by one.", "quantifier": "every reachable reduction state", "why_tests_cant": "All histories of reductions.", "anchors": ["medil/graph.py:ReducibleUndDepGraph.rule_2", "medil/graph.py:cover_edges"]}
{"id": "C24", "title": "reduzieren terminates in a reduced state", "statement": "reduzieren(k) ends from every reachable state for every k, raises nothing, and ends with a negative budget or with no uncovered edge or with a state to which neither rule 2 nor rule 3 applies and in which every remaining vertex has an uncovered edge.", "quantifier": "every reachable reduction state, every k", "why_tests_cant": "The `while self.reducing` loop has no syntactic bound.", "anchors": ["medil/graph.py:reduzieren", "medil/graph.py:ReducibleUndDepGraph.rule_1", "medil/graph.py:ReducibleUndDepGraph.rule_2", "medil/graph.py:ReducibleUndDepGraph.rule_3"]}
{"id": "C25", "title": "Rule 3 with reconstruction is sound on an uncovered graph", "statement": "If rule 3 deletes v from a graph with nothing covered yet, every prisoner of v keeping another neighbour, then adding v to each clique that contains a prisoner (reconstruct_cover) turns any clique cover of the remaining graph into a clique cover of the whole graph, with the same number of cliques.", "quantifier": "every size, every symmetric unit-diagonal graph, every deleted vertex, every cover of the rest", "why_tests_cant": "All covers of all graphs.", "anchors": ["medil/graph.py:ReducibleUndDepGraph.rule_3", "medil/graph.py:reconstruct_cover"]}
{"id": "C26", "title": "convert_to_nde is lossless", "statement": "The .nde text written for a symmetric graph determines its matrix: reading the vertex count and the edge lines back gives the same adjacency matrix; the per-vertex lines are the row sums.", "quantifier": "every size, every symmetric matrix", "why_tests_cant": "Round trip for all inputs.", "anchors": ["medil/graph.py:convert_to_nde"]}
{"id": "C27", "title": "recover_ug connects exactly the siblings", "statement": "recover_ug(B) is symmetric with false diagonal, and i != j are adjacent exactly when some latent is a parent of both.", "quantifier": "every shape, every bool matrix", "why_tests_cant": "All matrices.", "anchors": ["medil/evaluate.py:recover_ug"]}
{"id": "C28", "title": "sfd is symmetric, zero exactly on equal weighted graphs", "statement": "sfd(P,T) == sfd(T,P) (both components); the first component is 0 iff every pair of measurements (and every single one) has equally many common latents in P and T, the second is 0 iff P and T imply the same dependence graph.", "quantifier": "every pair of matrices with the same number of measurements, any numbers of latents", "why_tests_cant": "All pairs of matrices.", "anchors": ["medil/evaluate.py:sfd"]}
{"id": "C29", "title": "sfd ignores the order of latents and empty latents", "statement": "Permuting the rows of either argument, or adding all-zero rows, changes neither component of sfd.", "quantifier": "every pair of matrices, every row permutation", "why_tests_cant": "All permutations.", "anchors": ["medil/evaluate.py:sfd"]}
{"id": "C30", "title": "ushd is a distance", "statement": "The second component of sfd satisfies the triangle inequality and is at most n(n-1)/2.", "quantifier": "every triple of matrices with the same number of measurements", "why_tests_cant": "All triples.", "anchors": ["medil/evaluate.py:sfd"]}
{"id": "C31", "title": "sfd dominates ushd", "statement": "For sfd(P,T) = (s,u): 2*u <= s.", "quantifier": "every pair of matrices with the same number of measurements", "why_tests_cant": "All pairs.", "anchors": ["medil/evaluate.py:sfd"]}
{"id": "C32", "title": "sfd of matrices with different numbers of measurements", "statement": "sfd raises (numpy cannot broadcast) whenever the numbers of columns differ and both exceed 1.", "quantifier": "every pair of shapes", "why_tests_cant": "All shapes.", "anchors": ["medil/evaluate.py:sfd"]}
{"id": "C33", "title": "min_perm_squared_l2_dist is the minimum over row matchings", "statement": "The returned permutation is a permutation of the predicted rows, its distance to the zero-padded true matrix is the returned distance, no permutation is closer, and among the closest it is the lexicographically first.", "quantifier": "every predicted matrix, every true matrix with at most as many rows, every competing permutation", "why_tests_cant": "Ranges over all n! permutations of all matrices.", "anchors": ["medil/evaluate.py:min_perm_squared_l2_dist"]}
{"id": "C34", "title": "min_perm_squared_l2_dist is zero exactly on matching rows", "statement": "The returned distance is never negative, and is 0 iff the predicted rows are a rearrangement of the true rows padded with zero rows.", "quantifier": "every pair of matrices", "why_tests_cant": "All pairs.", "anchors": ["medil/evaluate.py:min_perm_squared_l2_dist"]}
{"id": "C35", "title": "min_perm_squared_l2_dist does not depend on row order", "statement": "Permuting the rows of the predicted matrix, or of the true matrix, leaves the returned distance unchanged.", "quantifier": "every pair of matrices, every permutation", "why_tests_cant": "All permutations.", "anchors": ["medil/evaluate.py:min_perm_squared_l2_dist"]}
{"id": "C36", "title": "min_perm_squared_l2_dist_abs ignores signs", "statement": "Flipping the sign of any entries of either argument leaves the returned distance unchanged, and the distance is at most that of min_perm_squared_l2_dist.", "quantifier": "every pair of matrices, every sign pattern", "why_tests_cant": "All sign patterns.", "anchors": ["medil/evaluate.py:min_perm_squared_l2_dist_abs"]}
{"id": "C37", "title": "min_perm_squared_l2_dist is exact for every dtype", "statement": "The returned distance is the minimum distance to the true matrix as given, also when the predicted matrix has an integer dtype.", "quantifier": "every integer predicted matrix, every real true matrix", "why_tests_cant": "All matrices and dtypes.", "anchors": ["medil/evaluate.py:min_perm_squared_l2_dist"]}
{"id": "C38", "title": "sample.biadj produces one-pure-child structures", "statement": "With one_pure_child=True the result has num_latent rows and num_meas columns, every measurement has a parent and every latent a pure child.", "quantifier": "every num_meas, num_latent <= num_meas, every density, every outcome of the random permutations", "why_tests_cant": "All random outcomes.", "anchors": ["medil/sample.py:biadj"]}
{"id": "C39", "title": "sample.biadj hits the requested density", "statement": "With one_pure_child=True and density in [0,1] the number of edges is num_meas + round(density*(num_meas-num_latent)*(num_latent-1)), with round half to even.", "quantifier": "every size, every density, every outcome of the random permutations", "why_tests_cant": "All random outcomes.", "anchors": ["medil/sample.py:biadj"]}
{"id": "C40", "title": "sample.biadj argument errors", "statement": "num_latent != 0 with one_pure_child=False, num_latent > num_meas, and num_meas <= 1 without num_latent raise ValueError; every other admissible argument list succeeds (one_pure_child=True).", "quantifier": "every argument combination", "why_tests_cant": "All argument values.", "anchors": ["medil/sample.py:biadj"]}
{"id": "C41", "title": "Generated structures are recovered from their dependence graph", "statement": "For every one-pure-child matrix produced by sample.biadj, both find_heuristic_1pc and find_clique_min_cover applied to its dependence graph return its rows up to order.", "quantifier": "every size, density and random outcome, every set order", "why_tests_cant": "All random outcomes times all set orders.", "anchors": ["medil/sample.py:biadj", "medil/ecc_algorithms.py:find_heuristic_1pc", "medil/ecc_algorithms.py:find_clique_min_cover"]}
{"id": "C42", "title": "Erdos-Renyi branch of sample.biadj", "statement": "With one_pure_child=False the graph handed to the cover search is symmetric with unit diagonal and has exactly round(density * n(n-1)/2) edges, so the call returns, every row of the result is a clique of that graph, and every measurement has a parent.", "quantifier": "every num_meas >= 1, density in [0,1], every random permutation, every set order", "why_tests_cant": "All random outcomes.", "anchors": ["medil/sample.py:biadj", "medil/ecc_algorithms.py:find_clique_min_cover"]}
{"id": "C43", "title": "sample.mcm parameters", "statement": "For Gaussian parameterization the weights are non-zero exactly on the edges of biadj with absolute value in [0.5,2), error variances lie in [0.5,2), and error means in (-2,2); the model's biadj is the one used.", "quantifier": "every bool biadj, every stream of random draws in [0,1)", "why_tests_cant": "All random streams.", "anchors": ["medil/sample.py:mcm"]}
{"id": "C44", "title": "A seeded generator determines sample.mcm", "statement": "Calling mcm with the same arguments and an identically seeded rng gives the same model, whatever was called before.", "quantifier": "every argument list, every history of earlier calls", "why_tests_cant": "Histories of calls share module-level default generators.", "anchors": ["medil/sample.py:mcm", "medil/sample.py:biadj"]}
{"id": "C45", "title": "dcov is the sample distance covariance", "statement": "dcov(samples)[0][i,j] is (1/N^2) * sum over all k,l of A_kl B_kl for the doubly centred distance matrices of features i and j.", "quantifier": "every real sample matrix", "why_tests_cant": "All samples.", "anchors": ["medil/independence_testing.py:dcov"]}
{"id": "C46", "title": "dcov is symmetric, location invariant and scale equivariant", "statement": "The matrix of dcov is symmetric; adding a constant to a feature changes nothing; multiplying feature i by c multiplies row and column i by |c|; reordering the observations changes nothing.", "quantifier": "every real sample matrix, constants, permutations of observations", "why_tests_cant": "All samples.", "anchors": ["medil/independence_testing.py:dcov"]}
{"id": "C47", "title": "estimate_UDG(dcov_fast) does not depend on units", "statement": "With method 'dcov_fast' the estimated graph is symmetric, has false diagonal, gives a constant feature no edge, and is unchanged by x -> a*x+b with a != 0 on any features and by reordering observations.", "quantifier": "every real sample matrix, every positive critical value, all affine maps", "why_tests_cant": "All samples and all changes of units.", "anchors": ["medil/independence_testing.py:estimate_UDG", "medil/independence_testing.py:dcov"]}
{"id": "C48", "title": "estimate_UDG with p-values: symmetric, irreflexive, monotone in the level", "statement": "For the pairwise-test methods the returned p-values and graph are symmetric, the graph has false diagonal, i<j are adjacent iff the test's p-value on columns (i,j) is below the level, and raising the level only adds edges; with a supplied p-value array the graph is its thresholding off the diagonal.", "quantifier": "every sample, every test function, every p-value array, every pair of levels", "why_tests_cant": "All tests and levels.", "anchors": ["medil/independence_testing.py:estimate_UDG"]}
{"id": "C49", "title": "estimate_UDG rejects unknown methods", "statement": "Any method name other than 'dcov_fast', 'dcov_big' and 'xicor' raises; in particular 'g-test' and misspellings return no graph.", "quantifier": "every method string", "why_tests_cant": "All strings.", "anchors": ["medil/independence_testing.py:estimate_UDG"]}
{"id": "C50", "title": "xicorr input validation", "statement": "xicorr raises ValueError exactly when the flattened inputs differ in size, and returns (nan, nan) when both are empty.", "quantifier": "every pair of inputs", "why_tests_cant": "All sizes.", "anchors": ["medil/independence_testing.py:xicorr"]}
{"id": "C51", "title": "xicorr depends only on ranks", "statement": "Replacing x or y by a strictly increasing transformation of it does not change the statistic nor the p-value inputs.", "quantifier": "every pair of samples, every strictly increasing map", "why_tests_cant": "All maps.", "anchors": ["medil/independence_testing.py:xicorr", "medil/independence_testing.py:_xicorr"]}
{"id": "C52", "title": "xicorr is at most 1 and its denominator is positive", "statement": "For n >= 2 observations the denominator of the statistic is positive (also when y is constant) and the statistic is at most 1.", "quantifier": "every pair of equally long samples with n >= 2", "why_tests_cant": "All samples.", "anchors": ["medil/independence_testing.py:_xicorr"]}
{"id": "C53", "title": "xicorr of a strictly monotone relation", "statement": "If there are no ties and y is a strictly increasing or strictly decreasing function of x, the statistic is (n-2)/(n+1).", "quantifier": "every n >= 2, every sample without ties", "why_tests_cant": "All n and all samples.", "anchors": ["medil/independence_testing.py:_xicorr"]}
{"id": "C54", "title": "The base class is abstract", "statement": "MedilCausalModel().fit and .sample raise NotImplementedError, and the constructor stores its arguments unchanged.", "quantifier": "every constructor argument, every dataset", "why_tests_cant": "All arguments.", "anchors": ["medil/models.py:MedilCausalModel"]}
{"id": "C55", "title": "GaussianMCM.fit keeps a given structure", "statement": "If a non-empty biadj was given, fit leaves biadj and udg unchanged; if only a udg was given, udg is unchanged and biadj is find_heuristic_1pc(udg); otherwise both are estimated from the dataset.", "quantifier": "every model state, every dataset, every optimizer result", "why_tests_cant": "All states.", "anchors": ["medil/models.py:GaussianMCM.fit", "medil/models.py:GaussianMCM._compute_biadj"]}
{"id": "C56", "title": "Refitting learns the new dataset's structure", "statement": "After fit(d1) then fit(d2) on the same GaussianMCM the structure is the one fit(d2) alone would learn.", "quantifier": "every pair of datasets", "why_tests_cant": "Histories of fits.", "anchors": ["medil/models.py:GaussianMCM.fit"]}
{"id": "C57", "title": "Fitted weights live on the structure", "statement": "After GaussianMCM.fit the weight matrix has the shape of biadj and is zero outside it, its entries on biadj are the optimizer's first |biadj| values in row-major order, the remaining num_meas values are the error variances, and error_means are the column means.", "quantifier": "every bool biadj, dataset and optimizer result", "why_tests_cant": "All optimizer results.", "anchors": ["medil/models.py:GaussianMCM.fit"]}
{"id": "C58", "title": "The least squares objective", "statement": "The objective minimised by GaussianMCM.fit is non-negative, is 0 iff W'W + diag(v) equals the sample covariance, and is unchanged by flipping the sign of all weights of a latent.", "quantifier": "every structure, weights, variances and covariance", "why_tests_cant": "All real parameters.", "anchors": ["medil/models.py:GaussianMCM.fit"]}
{"id": "C59", "title": "Fitted error variances are variances", "statement": "The error variances stored by GaussianMCM.fit at a global minimum of the objective are non-negative.", "quantifier": "every positive definite covariance, every structure, every global minimiser", "why_tests_cant": "All covariances.", "anchors": ["medil/models.py:GaussianMCM.fit"]}
{"id": "C60", "title": "GaussianMCM's estimated graph is a graph", "statement": "The udg estimated from data is symmetric with false diagonal, and i<j are adjacent exactly when neither column is constant and log(max(1 - cov_ij*corr_ij, 1e-5)) < -log(N)/N.", "quantifier": "every dataset with at least two rows and two columns", "why_tests_cant": "All datasets.", "anchors": ["medil/models.py:GaussianMCM._estimate_udg"]}
{"id": "C61", "title": "GaussianMCM's estimated graph does not depend on units", "statement": "Multiplying a feature by a positive constant does not change the estimated udg.", "quantifier": "every dataset, every positive factor", "why_tests_cant": "All changes of units.", "anchors": ["medil/models.py:GaussianMCM._estimate_udg"]}
{"id": "C62", "title": "GaussianMCM.sample is the structural equation", "statement": "sample(N) has N rows and num_meas columns and each row is z'W + e for the drawn latent z and error e; a measurement's value depends only on the latents that are its parents in biadj_weights.", "quantifier": "every parameter value and every outcome of the draws", "why_tests_cant": "All random outcomes.", "anchors": ["medil/models.py:GaussianMCM.sample"]}
{"id": "C63", "title": "DevMedil can be sampled after fitting", "statement": "After fit(dataset, method) succeeds, sample(n, method) returns a sample.", "quantifier": "every history of fit and sample calls", "why_tests_cant": "Histories of calls.", "anchors": ["medil/models.py:DevMedil.sample", "medil/models.py:DevMedil.fit"]}
{"id": "C64", "title": "DevMedil dispatch and state", "statement": "fit with a method other than 'mle'/'lse' raises ValueError and changes nothing; sample with such a method raises ValueError; validation before any fit raises AttributeError; after any history the stored W_hat has shape (num_latent, num_meas) of the last fit, with num_latent = num_meas (one_pure_child) or num_meas^2//4.", "quantifier": "every history of calls", "why_tests_cant": "Histories of calls.", "anchors": ["medil/models.py:DevMedil"]}
{"id": "C65", "title": "validation_lse on the training data is the training loss", "statement": "After fit(data,'lse') with non-negative optimised diagonal, validation_lse with the same penalties on the same data equals the optimizer's loss at its result.", "quantifier": "every dataset, penalty and optimizer result", "why_tests_cant": "All optimizer results.", "anchors": ["medil/models.py:DevMedil.validation_lse", "medil/models.py:DevMedil.fit_penalized_lse"]}
{"id": "C66", "title": "NCFA trains in training mode", "statement": "Every training batch of every epoch is processed with the re-parameterised (noisy) latent.", "quantifier": "every number of epochs and batches", "why_tests_cant": "Histories of epochs; a one-epoch test cannot see it.", "anchors": ["medil/models.py:NeuroCausalFactorAnalysis._train_vae", "medil/models.py:NeuroCausalFactorAnalysis._valid_vae", "medil/vae.py:VariationalAutoencoder.latent_sample"]}
{"id": "C67", "title": "NCFA training histories", "statement": "After fit the four loss histories have exactly num_epochs entries, the log received 1 + 3*num_epochs entries in order, and each epoch's entries are the mean over its batches of loss/batch_size.", "quantifier": "every number of epochs and non-empty loaders, every loss function", "why_tests_cant": "All histories.", "anchors": ["medil/models.py:NeuroCausalFactorAnalysis._train_vae", "medil/models.py:NeuroCausalFactorAnalysis._valid_vae"]}
{"id": "C68", "title": "NCFA standardizes its training data", "statement": "fit trains and validates on the standardized dataset whether or not explicit split indices are given.", "quantifier": "every dataset and index split", "why_tests_cant": "All splits.", "anchors": ["medil/models.py:NeuroCausalFactorAnalysis.fit"]}
{"id": "C69", "title": "NCFA's trained parameters include the hidden layers", "statement": "Every weight of the decoder is among model.parameters(), i.e. counted, optimised and moved to the device.", "quantifier": "every network size", "why_tests_cant": "All architectures.", "anchors": ["medil/vae.py:Decoder", "medil/models.py:NeuroCausalFactorAnalysis._train_vae"]}
{"id": "C70", "title": "Decoder blocks do not interact", "statement": "Output j of the decoder depends on the first layer only through the width_per_meas hidden units of block j, for any weights and any number of hidden layers.", "quantifier": "every width, depth, weight and input", "why_tests_cant": "All weights.", "anchors": ["medil/vae.py:Decoder", "medil/vae.py:SparseLinear"]}
{"id": "C71", "title": "The VAE is deterministic in evaluation mode", "statement": "In evaluation mode the latent is the mean and the forward pass is a function of the input; in training mode it is mean + exp(logvar/2)*noise.", "quantifier": "every weight, input and noise", "why_tests_cant": "All noise values.", "anchors": ["medil/vae.py:VariationalAutoencoder.latent_sample"]}
{"id": "C72", "title": "get_dag_from_biadj is a DAG from latents to measurements", "statement": "The returned matrix has an edge a->b exactly when a is a latent, b a measurement and biadj has that entry; hence there is no directed cycle and no directed path of length 2, and the biadjacency matrix can be read back.", "quantifier": "every shape, every matrix", "why_tests_cant": "All matrices.", "anchors": ["medil/visualize.py:get_dag_from_biadj"]}
{"id": "C73", "title": "Edge counts stay exact during reduction", "statement": "In every state reached by the reduction steps, the stored edge count of an uncovered edge is the number of edges of the input graph among the remaining common neighbours of its ends (so rule 2 recognises every edge that lies in only one clique).", "quantifier": "every graph, every reduction history", "why_tests_cant": "Only histories that delete adjacent vertices together show a difference.", "anchors": ["medil/graph.py:ReducibleUndDepGraph.rule_1", "medil/graph.py:ReducibleUndDepGraph.rule_2"]}
{"id": "C74", "title": "Constant measurements get no edge", "statement": "With method 'dcov_fast' or 'xicor', estimate_UDG gives no edge to a measurement that is constant in the sample (it is independent of everything).", "quantifier": "every sample with at least two observations, every level in (0,1)", "why_tests_cant": "All samples and levels.", "anchors": ["medil/independence_testing.py:estimate_UDG", "medil/independence_testing.py:xicorr"]}
{"id": "C75", "title": "The estimated graph does not depend on the order of the columns", "statement": "Reordering the measurements reorders the graph returned by estimate_UDG with method 'dcov_fast' or 'xicor'.", "quantifier": "every sample with at least two observations, every level in (0,1), every permutation of the measurements", "why_tests_cant": "All samples and permutations.", "anchors": ["medil/independence_testing.py:estimate_UDG", "medil/independence_testing.py:xicor_test"]}
{"id": "C76", "title": "Model objects do not interfere", "statement": "What fit and sample return on a GaussianMCM object does not depend on calls made on other objects.", "quantifier": "every set of objects, every history of fit and sample calls", "why_tests_cant": "Histories over several objects.", "anchors": ["medil/models.py:MedilCausalModel.__init__", "medil/models.py:GaussianMCM.sample"]}
{"id": "C77", "title": "GaussianMCM learns a one-pure-child structure from its graph", "statement": "If no structure was given and the graph used (given or estimated) is the dependence graph of a one-pure-child structure, fit returns for every set order and optimizer result, and the stored structure is that one up to the order of the latents.", "quantifier": "every one-pure-child structure, dataset, set order and optimizer result", "why_tests_cant": "All structures and orders.", "anchors": ["medil/models.py:GaussianMCM.fit", "medil/ecc_algorithms.py:find_heuristic_1pc"]}
{"id": "C78", "title": "DevMedil's least squares estimate is a valid model", "statement": "After fit(dataset,'lse') returns, the stored error covariance is diagonal with non-negative entries.", "quantifier": "every dataset, penalty and optimizer result", "why_tests_cant": "All optimizer results.", "anchors": ["medil/models.py:DevMedil.fit_penalized_lse"]}
{"id": "C79", "title": "DevMedil's likelihood loss is finite on valid models", "statement": "The maximum likelihood loss is a finite number, neither infinite nor an exception, for every weight matrix and all positive error variances.", "quantifier": "every weight matrix, positive variances, sample covariance and penalties", "why_tests_cant": "All real parameters.", "anchors": ["medil/models.py:DevMedil.fit_penalized_mle"]}
{"id": "C80", "title": "NCFA training changes only the listed parameters, by optimizer steps", "statement": "The weights of the network that NCFA.fit stores come from torch's random initial values by one optimizer step per training batch, each on that batch's loss; tensors that parameters() does not list (the hidden layers) keep their random initial values in every pass and in the saved network.", "quantifier": "every dataset, split, hyperparameters, optimizer, generator, number of epochs", "why_tests_cant": "Any optimizer and any number of epochs.", "anchors": ["medil/models.py:NeuroCausalFactorAnalysis._train_vae", "medil/vae.py:VariationalAutoencoder"]}
{"id": "C81", "title": "NCFA.fit is reproducible from its seed", "statement": "Two NCFA objects with equal seed, hyperparameters and structure, fitted to the same data, get the same network and loss histories.", "quantifier": "every pair of fits", "why_tests_cant": "All generator states; tests run with a fresh generator.", "anchors": ["medil/models.py:NeuroCausalFactorAnalysis.fit"]}
{"id": "C82", "title": "The standardized dataset has mean 0 and variance 1", "statement": "After standardization every column has mean 0 and variance 1 (0 for a constant column), and the result does not depend on the units (shift and positive scale) of the columns.", "quantifier": "every dataset", "why_tests_cant": "All real data.", "anchors": ["medil/models.py:NeuroCausalFactorAnalysis.fit"]}
{"id": "C83", "title": "A data loader's batches partition the rows", "statement": "A loader exists exactly for a positive batch size; its batches, one after the other, are the rows in order, every batch but the last has batch_size rows and the last at least one.", "quantifier": "every list of rows and batch size", "why_tests_cant": "All sizes.", "anchors": ["medil/models.py:NeuroCausalFactorAnalysis._data_loader"]}
{"id": "C84", "title": "The reported loss of an epoch is the average per row", "statement": "The stored loss of an epoch is the total loss of its batches divided by the number of rows.", "quantifier": "every fit, epoch, batch size", "why_tests_cant": "All sizes; the error only shows when the last batch is smaller.", "anchors": ["medil/models.py:NeuroCausalFactorAnalysis._train_vae", "medil/models.py:NeuroCausalFactorAnalysis._valid_vae"]}
{"id": "C85", "title": "The VAE loss is the negative evidence lower bound", "statement": "With beta=1 and no penalties, the loss of a batch is the Kullback-Leibler divergence of the variational distribution plus the negative Gaussian log likelihood, up to a constant.", "quantifier": "every batch and network output", "why_tests_cant": "All real tensors.", "anchors": ["medil/models.py:NeuroCausalFactorAnalysis._elbo_gaussian"]}
{"id": "C86", "title": "The KL term is nonnegative and the loss positive", "statement": "The divergence term is never negative, and 0 exactly when every row's variational distribution is standard normal; with nonnegative beta, lambda, mu every loss and every stored loss value is positive.", "quantifier": "every batch, every network output, every fit", "why_tests_cant": "All real tensors.", "anchors": ["medil/models.py:NeuroCausalFactorAnalysis._elbo_gaussian"]}
{"id": "C87", "title": "NCFA.fit never changes the structure or the settings", "statement": "No history of fit calls on any objects changes biadj, udg, hyperparameters, seed, path or verbosity of any object; sample always raises NotImplementedError.", "quantifier": "every history of fit calls", "why_tests_cant": "Any length of history.", "anchors": ["medil/models.py:NeuroCausalFactorAnalysis.fit", "medil/models.py:MedilCausalModel.sample"]}
{"id": "C88", "title": "NCFA's saved files agree with its attributes", "statement": "After any history of successful and failing fits of one object, the saved network, loss and training files hold exactly its current vae and loss attributes.", "quantifier": "every history of fit calls", "why_tests_cant": "Any length of history, any failure point.", "anchors": ["medil/models.py:NeuroCausalFactorAnalysis.fit"]}
{"id": "C89", "title": "A failing NCFA.fit keeps the earlier results", "statement": "A fit that raises changes only the attribute dataset of the object; network, losses, structure and saved result files stay as they were.", "quantifier": "every failing call", "why_tests_cant": "Every failure point.", "anchors": ["medil/models.py:NeuroCausalFactorAnalysis.fit"]}
{"id": "C90", "title": "NCFA.fit writes only inside its path", "statement": "Only files in the directory `path` are changed by fit.", "quantifier": "every path and fit", "why_tests_cant": "All strings.", "anchors": ["medil/models.py:NeuroCausalFactorAnalysis.fit"]}
{"id": "C91", "title": "NCFA objects do not overwrite each other's results", "statement": "Whatever is done with other objects, the files saved for an object hold its own network and losses.", "quantifier": "every history of fits of several objects", "why_tests_cant": "Any interleaving.", "anchors": ["medil/models.py:NeuroCausalFactorAnalysis.__init__", "medil/models.py:NeuroCausalFactorAnalysis.fit"]}
{"id": "C92", "title": "NCFA's sparsity penalty is the L1 norm", "statement": "The penalty computed by _sigma is the sum of the absolute values of its argument.", "quantifier": "every matrix", "why_tests_cant": "All real matrices.", "anchors": ["medil/models.py:NeuroCausalFactorAnalysis._sigma"]}
{"id": "C93", "title": "The reported reconstruction error is a worst case residual", "statement": "The unweighted reconstruction error of a batch is nonnegative, zero exactly for perfect reconstruction, and bounds the length of the residuals of every combination of measurements, a bound that is attained.", "quantifier": "every batch and network output", "why_tests_cant": "All real tensors.", "anchors": ["medil/models.py:NeuroCausalFactorAnalysis._recon_error"]}
{"id": "C94", "title": "show_dag draws the model", "statement": "show_dag places latents evenly on an upper and measurements on a lower line, no two at the same place, labels them L_i and M_j, and draws an arrow from L_i to M_j exactly for the nonzero entries, once each.", "quantifier": "every biadjacency matrix", "why_tests_cant": "All shapes and matrices.", "anchors": ["medil/visualize.py:show_dag"]}
{"id": "C95", "title": "The other plotting functions work", "statement": "show_obs_adj_mat and show_pairwise_plot return without exception.", "quantifier": "every argument", "why_tests_cant": "There is no test; they fail for every argument.", "anchors": ["medil/visualize.py:show_obs_adj_mat", "medil/visualize.py:show_pairwise_plot"]}
{"id": "C96", "title": "Exact recovery from private pairs", "statement": "If every child of every latent is an endpoint of a private pair of this latent (two children whose common neighbours in the dependence graph are all children of it) or isolated, then find_clique_min_cover on the dependence graph returns exactly these latents up to order for every set order, and this structure is the only smallest one; one-pure-child structures are a special case.", "quantifier": "every structure with private pairs, of any size, every set order", "why_tests_cant": "All graphs of a class with exponentially many members per size, and all iteration orders.", "anchors": ["medil/ecc_algorithms.py:find_clique_min_cover", "medil/ecc_algorithms.py:branch", "medil/graph.py:ReducibleUndDepGraph.reduzieren"]}
{"id": "C97", "title": "Exact search returns the maximal cliques when edges are in one each", "statement": "If every edge of the graph lies in only one maximal clique (e.g. no triangles), find_clique_min_cover returns every maximal clique exactly once, and no cover has fewer cliques.", "quantifier": "every such graph, every set order", "why_tests_cant": "All graphs of the class and all iteration orders.", "anchors": ["medil/ecc_algorithms.py:find_clique_min_cover", "medil/graph.py:ReducibleUndDepGraph.reduzieren"]}
{"id": "C98", "title": "The VAE's reconstructions are confined to a band", "statement": "Whatever the data, mode, noise and the other weights, the reconstruction and the log variance of measurement j differ from the bias of its output unit by at most the sum of the absolute values of its width_per_meas output weights; a value outside the band has a residual bounded below.", "quantifier": "every network, batch, mode, generator", "why_tests_cant": "All real weights and inputs.", "anchors": ["medil/vae.py:Decoder.forward", "medil/vae.py:VariationalAutoencoder.forward"]}
{"id": "C99", "title": "The bundled examples are recovered", "statement": "For each bundled example the UDG is the dependence graph of the MCM, find_clique_min_cover on the UDG returns the MCM's rows for every set order, and no structure with this dependence graph has fewer latents than the MCM.", "quantifier": "every bundled example, every set order, every competing structure", "why_tests_cant": "Tests run one set order and do not compare with all structures.", "anchors": ["medil/examples.py:examples", "medil/ecc_algorithms.py:find_clique_min_cover"]}
{"id": "C100", "title": "The printed bound on the number of cliques", "statement": "The number printed by find_clique_min_cover as 'solution has at most N cliques' is an upper bound on the number of rows it returns.", "quantifier": "every dependence graph with an edge, every set order", "why_tests_cant": "Infinitely many graphs; the bound is a theorem of graph theory.", "anchors": ["medil/ecc_algorithms.py:find_clique_min_cover"]}
{"id": "C101", "title": "The heuristic never needs more latents than the exact search", "statement": "When both return, find_heuristic_1pc(A) has at most as many rows as find_clique_min_cover(A), and at most as many as any cover; on dependence graphs of one-pure-child structures the numbers agree.", "quantifier": "every graph, every set order of both searches", "why_tests_cant": "All graphs and orders.", "anchors": ["medil/ecc_algorithms.py:find_heuristic_1pc", "medil/ecc_algorithms.py:find_clique_min_cover"]}
{"id": "C102", "title": "One-pure-child structures are identified by their dependence graph", "statement": "For two one-pure-child structures, sfd reports 0 as squared Frobenius distance iff it reports 0 as structural Hamming distance iff the structures have the same latents up to order.", "quantifier": "every pair of one-pure-child structures, of any numbers of latents and measurements", "why_tests_cant": "All pairs of structures.", "anchors": ["medil/evaluate.py:sfd", "medil/evaluate.py:recover_ug"]}
{"id": "C103", "title": "Samples of a fitted GaussianMCM follow the fitted model", "statement": "After any fits, GaussianMCM.sample(n) with an ideal multivariate-normal generator returns n independent normal rows with the fitted means and covariance W'W + diag(variances); measurements sharing no latent are independent, and two measurements sharing exactly one latent with non-zero weights are dependent.", "quantifier": "every structure, history of fits, dataset, sample size and random stream of an ideal generator", "why_tests_cant": "A statement about a probability distribution; a test sees finitely many draws.", "anchors": ["medil/models.py:GaussianMCM.sample", "medil/models.py:GaussianMCM.fit"]}
{"id": "C104", "title": "Samples of sample.mcm models obey the structure", "statement": "A model returned by sample.mcm has a positive definite covariance, zero between measurements sharing no latent and at least 1/4 in absolute value between measurements sharing exactly one; its samples (it has at least one latent and one measurement, otherwise sample raises) are independent for the former and dependent for the latter.", "quantifier": "every argument combination of mcm, every random stream, every sample size", "why_tests_cant": "A statement about probability distributions over all generated models.", "anchors": ["medil/sample.py:mcm", "medil/models.py:GaussianMCM.sample"]}
{"id": "C105", "title": "DevMedil's maximum likelihood loss is bounded below", "statement": "For every dataset and non-negative penalties the loss minimised by fit_penalized_mle (and reported by validation_mle) is bounded below; without penalties its least value is the one at model covariance = sample covariance.", "quantifier": "every dataset, penalty pair, weight matrix and error variance vector", "why_tests_cant": "A statement about the infimum of a function of real matrices of any size.", "anchors": ["medil/models.py:DevMedil.fit_penalized_mle", "medil/models.py:DevMedil.validation_mle"]}
{"id": "C106", "title": "DevMedil without penalties reproduces the sample covariance", "statement": "fit(dataset,'lse',0,0) with an optimizer that finds a global minimum stores weights and variances whose implied covariance is exactly the sample covariance, for both settings of one_pure_child.", "quantifier": "every dataset with any number of columns, both settings", "why_tests_cant": "Existence of an exact fit for every covariance matrix.", "anchors": ["medil/models.py:DevMedil.fit_penalized_lse"]}
{"id": "C107", "title": "Penalised least squares has a solution that shrinks with the penalty", "statement": "With mu_reg > 0 the penalised least squares loss has a global minimum on every dataset, and at every global minimum mu_reg*sum|W| is at most the sum of squared off-diagonal sample covariances.", "quantifier": "every dataset, lambda_reg >= 0, mu_reg > 0", "why_tests_cant": "Existence of minima over an unbounded continuous domain.", "anchors": ["medil/models.py:DevMedil.fit_penalized_lse", "medil/models.py:DevMedil.rho", "medil/models.py:DevMedil.sigma"]}
{"id": "C108", "title": "DevMedil's losses ignore order and sign of latents", "statement": "Renumbering latents or flipping the sign of all weights of a latent changes neither validation_mle nor validation_lse; with mu_reg = 0 any rotation of the latents leaves both unchanged.", "quantifier": "every estimate, dataset, penalties, permutation, signs, orthogonal matrix", "why_tests_cant": "All orthogonal matrices and all sizes.", "anchors": ["medil/models.py:DevMedil.validation_mle", "medil/models.py:DevMedil.validation_lse", "medil/models.py:DevMedil.rho"]}
{"id": "C109", "title": "DevMedil allocates enough latents", "statement": "The number of latents of the estimate suffices for every dependence graph of the measurements (for every one-pure-child dependence graph if one_pure_child), and num_meas^2//4 cannot be lowered in general.", "quantifier": "every graph on any number of measurements", "why_tests_cant": "The bound is a theorem about all graphs.", "anchors": ["medil/models.py:DevMedil.fit_penalized_mle", "medil/models.py:DevMedil.fit_penalized_lse"]}
{"id": "C110", "title": "xicorr always returns a p-value", "statement": "For two or more observations, with or without ties in the data and for both settings of ties, xicorr (and xicor_test) returns numbers, never nan, and the p-value lies in [0,1]: the variance estimate is never negative, and zero only for constant y, where the statistic is 1.", "quantifier": "every pair of samples of equal size >= 2, both settings of ties, every way to break sorting ties, every distribution function", "why_tests_cant": "The variance estimate is a difference of three sums; its sign over all samples is a theorem.", "anchors": ["medil/independence_testing.py:xicorr", "medil/independence_testing.py:xicor_test"]}
{"id": "C111", "title": "xicorr statistic lies between -1/2 and 1", "statement": "For two or more observations the statistic of xicorr is a number between -1/2 and 1, with and without ties.", "quantifier": "every pair of samples of equal size >= 2, every way to break sorting ties", "why_tests_cant": "The extreme values are reached only asymptotically; all tie patterns and sizes.", "anchors": ["medil/independence_testing.py:_xicorr"]}
{"id": "C112", "title": "No harm in ties=True", "statement": "When y has no ties, ties=True uses the variance (2n^2+7)/(5(n^2-1)) in place of 2/5: same statistic, p-value at least as large whenever the statistic is not negative (so no additional edges), and never exactly equal for a positive statistic in general.", "quantifier": "every sample of size >= 2 with distinct y, every monotone distribution function", "why_tests_cant": "A closed form in n for the tie-corrected variance.", "anchors": ["medil/independence_testing.py:xicorr"]}
{"id": "C113", "title": "dcov_fast is conservative", "statement": "Every entry of dcov is at most half of the sample distance covariance, which is never negative; every edge of estimate_UDG(sample,'dcov_fast') has a sample-distance-covariance statistic of at least twice the critical value.", "quantifier": "every sample, every pair of columns, every level", "why_tests_cant": "Inequalities over all samples.", "anchors": ["medil/independence_testing.py:dcov", "medil/independence_testing.py:estimate_UDG"]}
{"id": "C114", "title": "dcov returns a positive semidefinite matrix", "statement": "The matrix returned by dcov is positive semidefinite: quadratic forms are non-negative, the diagonal is non-negative and |C_ij|^2 <= C_ii C_jj.", "quantifier": "every sample, every vector, every pair of columns", "why_tests_cant": "All samples and all vectors.", "anchors": ["medil/independence_testing.py:dcov"]}
{"id": "C115", "title": "Distance covariances are not negative", "statement": "No entry of the matrix returned by dcov is negative.", "quantifier": "every sample, every pair of columns", "why_tests_cant": "All samples.", "anchors": ["medil/independence_testing.py:dcov"]}
{"id": "C116", "title": "Empirically independent columns get no edge", "statement": "If the joint empirical distribution of two columns is the product of their empirical distributions, their sample distance covariance is 0, dcov returns at most 0 and estimate_UDG with dcov_fast does not join them (positive critical value).", "quantifier": "every sample, every empirically independent pair of columns, every level with positive critical value", "why_tests_cant": "All samples.", "anchors": ["medil/independence_testing.py:dcov", "medil/independence_testing.py:estimate_UDG"]}
{"id": "C117", "title": "dcov_fast needs at least twice the critical value many observations", "statement": "The statistic of dcov_fast is at most half the number of observations, so with fewer than 2*chi2(1).ppf(1-level) observations (7 at level 0.05) the estimated graph has no edge, even between identical columns.", "quantifier": "every sample with any number of columns, every level", "why_tests_cant": "A bound over all samples.", "anchors": ["medil/independence_testing.py:dcov", "medil/independence_testing.py:estimate_UDG"]}
{"id": "C118", "title": "Weights are identified with three indicators", "statement": "If the sample covariance is that of a linear measurement model on the structure used, every latent has two pure children and a third child with non-zero weights, and the optimizer finds a global minimum, then GaussianMCM.fit stores exactly the generating error variances and the generating weights up to the sign of each latent; with only two children per latent this fails.", "quantifier": "every structure, weight matrix, error variances and dataset with that covariance, every optimizer returning global minima", "why_tests_cant": "All global minimisers of a polynomial for every structure.", "anchors": ["medil/models.py:GaussianMCM.fit"]}
{"id": "C119", "title": "From data to weights", "statement": "Without a given structure, if the dependence graph used is that of a one-pure-child structure and the sample covariance that of weights on it with three indicators per latent, then for every set iteration order GaussianMCM.fit returns without error, with the generating error variances, and min_perm_squared_l2_dist_abs between the fitted and the generating weights is 0.", "quantifier": "every one-pure-child structure, graph given or estimated, weights, error variances and dataset, every set order", "why_tests_cant": "End-to-end over all structures and set orders.", "anchors": ["medil/models.py:GaussianMCM.fit", "medil/evaluate.py:min_perm_squared_l2_dist_abs"]}
{"id": "C120", "title": "sfd is the square of a distance", "statement": "The square root of the first value of sfd satisfies the triangle inequality (the value itself does not), so with C28 it is a distance between weighted dependence graphs.", "quantifier": "every three structures with equally many measurements, any numbers of latents", "why_tests_cant": "All triples of matrices.", "anchors": ["medil/evaluate.py:sfd"]}
{"id": "C121", "title": "min_perm_squared_l2_dist is the square of a distance", "statement": "For matrices of equal shape with at least one row, both min_perm functions return a value that is non-negative, symmetric in its arguments and zero for equal ones, and whose square root satisfies the triangle inequality.", "quantifier": "every three real matrices of equal shape, both functions", "why_tests_cant": "All triples of matrices; the optimal matchings differ from pair to pair.", "anchors": ["medil/evaluate.py:min_perm_squared_l2_dist", "medil/evaluate.py:min_perm_squared_l2_dist_abs"]}
{"id": "C122", "title": "min_perm_squared_l2_dist checks shapes", "statement": "A min_perm call returns a value only with at least one predicted row, at most as many true as predicted rows, and equally many columns or a single true column (silently repeated by numpy); the value is the least distance over row matchings; all other calls with a predicted row raise ValueError.", "quantifier": "every pair of matrices of every shapes", "why_tests_cant": "All shapes.", "anchors": ["medil/evaluate.py:min_perm_squared_l2_dist", "medil/evaluate.py:min_perm_squared_l2_dist_abs"]}
{"id": "C123", "title": "Structure scores agree", "statement": "On 0/1 matrices the min_perm functions return the least number of edges in which the structures differ over all renamings of the latents; if that is 0 both values of sfd are 0 (converses fail in general), and between one-pure-child structures the three scores are 0 at the same time.", "quantifier": "every pair of structures; every pair of one-pure-child structures", "why_tests_cant": "All structures and all renamings.", "anchors": ["medil/evaluate.py:min_perm_squared_l2_dist", "medil/evaluate.py:min_perm_squared_l2_dist_abs", "medil/evaluate.py:sfd"]}
{"id": "C124", "title": "dcov_fast detects every dependence on enough data", "statement": "The sample distance covariance is 0 exactly for empirically independent columns; and for every sample there is a number of copies from which on the edges of estimate_UDG(copies of the sample, 'dcov_fast') are exactly the pairs of columns that are not empirically independent.", "quantifier": "every finite sample, every pair of columns, every positive critical value, every sufficiently large number of copies", "why_tests_cant": "An equivalence over all samples and a limit in the number of observations.", "anchors": ["medil/independence_testing.py:dcov", "medil/independence_testing.py:estimate_UDG"]}
{"id": "C125", "title": "NCFA structure learning", "statement": "NeuroCausalFactorAnalysis._compute_biadj raises AttributeError before the first fit when no graph is given and UnboundLocalError for unknown methods, in both cases without changing the object; if the graph used (given or estimated) is that of a one-pure-child structure it stores this structure, up to the order of latents, for every set order; with method dcov_fast it recovers every one-pure-child structure whose non-siblings are exactly the empirically independent pairs from enough copies of the dataset.", "quantifier": "every object state, method, test library, set order, dataset and one-pure-child structure", "why_tests_cant": "End-to-end over all structures, data and set orders.", "anchors": ["medil/models.py:NeuroCausalFactorAnalysis._compute_biadj", "medil/models.py:NeuroCausalFactorAnalysis._estimate_udg"]}
{"id": "C126", "title": "Consistency of the estimated graph", "statement": "Let the rows of the dataset be independent with a common mean and covariance matrix, positive variances and bounded fourth moments (not necessarily normal or identically distributed), and let there be more than one variable. From some number of rows on, with probability as close to 1 as wanted, the graph estimated by GaussianMCM joins exactly the pairs of variables with non-zero covariance.", "quantifier": "every covariance matrix with positive variances, bound on the fourth moments, probability space, random array and tolerance", "why_tests_cant": "A statement about the limit over all sample sizes and distributions.", "anchors": ["medil/models.py:GaussianMCM._estimate_udg"]}
{"id": "C127", "title": "Consistency of structure learning", "statement": "If moreover the pairs with non-zero covariance are the pairs with a common parent in a one-pure-child structure, then from some number of rows on, with probability as close to 1 as wanted, fit of a new GaussianMCM stores this structure up to the order of latents, for every optimizer and set order.", "quantifier": "every one-pure-child structure, covariance matrix, random array, optimizer and set order", "why_tests_cant": "A statement about the limit over all sample sizes and distributions.", "anchors": ["medil/models.py:GaussianMCM.fit", "medil/models.py:GaussianMCM._estimate_udg"]}
{"id": "C128", "title": "Simulation round trip", "statement": "A GaussianMCM object with a one-pure-child structure, positive error variances and non-zero covariances of variables with a common parent is recovered from its own samples: from some sample size on, with probability as close to 1 as wanted, fit of a new object to the array returned by sample stores the same structure up to the order of latents. For objects returned by sample.mcm whose structure has the one-pure-child property and no two variables with two common parents no further condition is needed.", "quantifier": "every such object, ideal normal generator, sample size, optimizer and set order", "why_tests_cant": "Quantifies over all models and over the probability of all samples.", "anchors": ["medil/models.py:GaussianMCM.fit", "medil/models.py:GaussianMCM.sample", "medil/sample.py:mcm"]}
{"id": "C129", "title": "Stability of fitted parameters", "statement": "If every latent has two pure children and a third child with non-zero weights, then for datasets whose covariances are close enough to those of the model and whose dependence graph is right, fit with an optimizer that finds global minima returns error variances and weights (up to the order and sign of latents, as measured by min_perm_squared_l2_dist_abs) as close to those of the model as wanted; the least squares objective then has a global minimum.", "quantifier": "every one-pure-child structure, weights, variances, tolerance, dataset, set order and ideal optimizer", "why_tests_cant": "Continuity over all datasets cannot be tested.", "anchors": ["medil/models.py:GaussianMCM.fit", "medil/evaluate.py:min_perm_squared_l2_dist_abs"]}
{"id": "C130", "title": "Consistency of fitted parameters", "statement": "For independent rows with the covariance of such a model and bounded fourth moments, from some number of rows on, with probability as close to 1 as wanted, fit of a new GaussianMCM with an optimizer that finds global minima returns means, error variances and weights (up to the order and sign of latents) within any tolerance of the true ones.", "quantifier": "every such model, tolerance, random array, set order and ideal optimizer", "why_tests_cant": "A statement about the limit over all sample sizes and distributions.", "anchors": ["medil/models.py:GaussianMCM.fit", "medil/models.py:GaussianMCM._estimate_udg", "medil/evaluate.py:min_perm_squared_l2_dist_abs"]}
{"id": "C131", "title": "Order of the nodes in the simulation script", "statement": "compute_caus_order(biadj) lists every node exactly once and every latent before its children.", "quantifier": "every 0/1 structure", "why_tests_cant": "The number of structures is infinite.", "anchors": ["scripts/developing.py:compute_caus_order"]}
{"id": "C132", "title": "Simulated rows follow the additive sine model", "statement": "Every value returned by sample_data_from_GAM_GP is the sum, over the parents of the measurement, of the coefficient times the sine of the latent drawn for the row, plus the noise; in particular it does not depend on the previous content of memory.", "quantifier": "every structure, coefficients, variances, noise exponent, draws and initial memory", "why_tests_cant": "Uninitialised memory differs between runs, and the claim ranges over all structures.", "anchors": ["scripts/developing.py:sample_data_from_GAM_GP"]}
{"id": "C133", "title": "Coefficients of the simulation", "statement": "random_B(biadj) gives every edge its own coefficient with absolute value between 0.1 and 0.9, and 0 to all other pairs, so that in verify_independence_pattern_GP the measurements depend on their latents.", "quantifier": "every structure, element type of the array and draws", "why_tests_cant": "All structures, array types and draws.", "anchors": ["scripts/developing.py:random_B", "scripts/developing.py:verify_independence_pattern_GP"]}
{"id": "C134", "title": "Dependences in generated datasets", "statement": "With an ideal generator, sets of columns of generate_dataset without common parents are independent; given the drawn weights, two columns are dependent in every row if the products of their weights over the common parents do not add up to 0 (for instance one common parent and non-zero weights).", "quantifier": "every structure, number of rows, noise scale, probability space, weights", "why_tests_cant": "Independence is a statement about the distribution of all draws.", "anchors": ["scripts/developing.py:generate_dataset"]}
{"id": "C135", "title": "Scores of the verification functions", "statement": "verify_independence_pattern returns for every structure with at least one measurement; its expected graph joins exactly the pairs with a common parent; the match rate is between 1/n and 1, and is 1 exactly if the estimated graph is the expected one. In verify_independence_pattern_GP every pair is counted once, precision, recall and F1 are in [0,1) and the match rate is 1 exactly if the graphs agree on all pairs.", "quantifier": "every structure, draws, test results, pair of graphs", "why_tests_cant": "All graphs and all data.", "anchors": ["scripts/developing.py:verify_independence_pattern", "scripts/developing.py:verify_independence_pattern_GP"]}
{"id": "C136", "title": "grid_search reports the best penalties", "statement": "grid_search fills its tables with the distances and SFD of the fitted models and reports the penalties, among those for which fitting succeeds, with the smallest distance to the true weights; grid_search_kfold fills its distance and SFD tables with averages over the folds.", "quantifier": "every dataset, true weights, optimizer and generator", "why_tests_cant": "All datasets and optimizer results.", "anchors": ["scripts/developing.py:grid_search", "scripts/developing.py:grid_search_kfold", "scripts/developing.py:calculate_metrics"]}
{"id": "C137", "title": "Cross-validation errors", "statement": "In the validation tables of grid_search_kfold, the entry at the position of lambda and mu is the average, over the folds for which fitting and validation succeed, of the penalized loss with these penalties, on the held-out rows, of the model fitted to the other rows; nan if there is no such fold and inf if one of these losses is infinite.", "quantifier": "every list of folds, optimizer, generator, cell of the grid and method", "why_tests_cant": "All datasets and optimizer results.", "anchors": ["scripts/developing.py:grid_search_kfold", "scripts/developing.py:calculate_validation_error"]}
{"id": "C138", "title": "Folds of the cross-validation", "statement": "In grid_search_kfold every row of the dataset is held out in exactly one of the k folds and used for training in all others; the held-out parts differ in size by at most one row, and no row is repeated.", "quantifier": "every number of rows, number of folds and shuffle", "why_tests_cant": "All sizes and shuffles.", "anchors": ["scripts/developing.py:grid_search_kfold"]}
{"id": "C139", "title": "Sampling weights for an integer structure", "statement": "sample.mcm(biadj=B) with a structure given as an array of the integers 0 and 1 (like the structures in medil.examples) returns a model whose weights are non-zero exactly on the edges.", "quantifier": "every 0/1 integer array and generator", "why_tests_cant": "All structures and draws; the tests use one.", "anchors": ["medil/sample.py:mcm"]}
{"id": "C140", "title": "Fitting with an integer structure", "statement": "GaussianMCM(biadj=B).fit(dataset) with a 0/1 integer array B returns weights that are zero off the edges of B.", "quantifier": "every 0/1 integer array, dataset and optimizer", "why_tests_cant": "All structures, data and optimizer results.", "anchors": ["medil/models.py:GaussianMCM.fit"]}
{"id": "C141", "title": "Distances for 0/1 numbers", "statement": "sfd and recover_ug give the same results for structures written with the numbers 0 and 1 as for bool arrays, in arithmetic that does not overflow (integers of few bits: C211).", "quantifier": "every pair of structures with equally many measurements", "why_tests_cant": "All pairs of structures.", "anchors": ["medil/evaluate.py:sfd", "medil/evaluate.py:recover_ug"]}
{"id": "C142", "title": "Distances of weight matrices", "statement": "sfd of two weight matrices compares their structures: it equals the sfd of their supports.", "quantifier": "every pair of weight matrices with equally many columns", "why_tests_cant": "All real matrices.", "anchors": ["medil/evaluate.py:sfd", "medil/evaluate.py:recover_ug"]}
{"id": "C143", "title": "Share of training rows", "statement": "NeuroCausalFactorAnalysis.fit without explicit indices trains on 70 percent of the rows, rounded down, and validates on the others; neither part is empty.", "quantifier": "every number of rows at least 2, with double precision arithmetic", "why_tests_cant": "Rounding depends on the number of rows in an irregular way.", "anchors": ["medil/models.py:NeuroCausalFactorAnalysis.fit"]}
{"id": "C144", "title": "Number of edges of random structures", "statement": "The number of edges sample.biadj draws is the density times the number of possible edges, rounded to the nearest integer (halves to even), with double precision arithmetic; it is between 0 and the number of possible edges.", "quantifier": "every density in [0,1] that is a double and every number of possible edges", "why_tests_cant": "Rounding depends on the inputs in an irregular way.", "anchors": ["medil/sample.py:biadj"]}
{"id": "C145", "title": "Cost of the maximal clique search", "statement": "max_cliques on n vertices ends after at most 5*3^(n/3) passes of its loop and yields at most 3^(n/3) lists; for every m there is a graph on 3m vertices for which it yields 3^m lists.", "quantifier": "every matrix, number of vertices and iteration order of Python's sets", "why_tests_cant": "Worst-case cost ranges over all graphs; running time cannot be tested for all.", "anchors": ["medil/ecc_algorithms.py:max_cliques", "medil/ecc_algorithms.py:find_heuristic_1pc"]}
{"id": "C146", "title": "Simulated parameters are recovered", "statement": "Fitting a new GaussianMCM to enough rows sampled from a GaussianMCM (structure with the one-pure-child property, three indicators per latent, faithful weights) gives means and error variances close to those of the first object, and weights with small min_perm_squared_l2_dist_abs to those of the first object.", "quantifier": "every such object, tolerance, failure probability, ideal generator, ideal optimizer and set order", "why_tests_cant": "A statement about probabilities for all large sample sizes.", "anchors": ["medil/models.py:GaussianMCM.sample", "medil/models.py:GaussianMCM.fit"]}
{"id": "C147", "title": "Random models are faithful", "statement": "The models drawn by sample.mcm have non-zero covariance between two different variables exactly if these have a common parent, almost surely; so for almost every drawn model with a one-pure-child structure, sample and fit recover the structure from enough rows.", "quantifier": "every structure, every independent continuously distributed draws, any signs, means and positive error variances", "why_tests_cant": "A statement about probability 1 and all large sample sizes.", "anchors": ["medil/sample.py:mcm", "medil/models.py:GaussianMCM.fit"]}
{"id": "C148", "title": "The benchmark reports on every structure", "statement": "benchmark_graphs_deep_dive finishes and prints, for every structure of its list, the penalties with the smallest distance and the estimates for them.", "quantifier": "every list of structures, generator and optimizer", "why_tests_cant": "All lists of structures, draws and optimizer results.", "anchors": ["scripts/developing.py:benchmark_graphs_deep_dive", "scripts/developing.py:grid_search"]}
{"id": "C149", "title": "The cross-validation benchmark plots errors", "statement": "benchmark_graphs_deep_dive_kfold finishes and draws, for every (non-empty) structure of its list, for both methods, the tables of the validation errors, distances and SFD of the fitted models.", "quantifier": "every list of structures, number of folds, shuffle, generator and optimizer", "why_tests_cant": "All lists of structures, draws and optimizer results.", "anchors": ["scripts/developing.py:benchmark_graphs_deep_dive_kfold", "scripts/developing.py:grid_search_kfold"]}
{"id": "C150", "title": "Output weights outside the mask are never trained", "statement": "NCFA.fit does not train the weights of the two output layers of the decoder that connect an output to hidden units of other measurements: in the stored network each of them is its random initial value times the product of AdamW's decay factors (1 - 0.00001 * learning rate) of the optimizer steps; so they are in general not zero.", "quantifier": "every dataset, split, hyperparameters, generator, learning rate, and gradient that is 0 at weights the loss does not depend on", "why_tests_cant": "Every data set, number of epochs and gradient.", "anchors": ["medil/models.py:NeuroCausalFactorAnalysis._train_vae", "medil/vae.py:SparseLinear.forward"]}
{"id": "C151", "title": "Training cannot move a weight arbitrarily far", "statement": "In every pass of NCFA.fit and in the stored network every weight and bias is within (7.3 + |initial value|/100000) * S of its random initial value, where S is the sum of the learning rates of the optimizer steps (lr, reduced by 10 percent every 50 epochs); and its absolute value exceeds that of the initial value by at most 3650 * lr * (number of training batches per epoch), however many epochs are run and whatever the data are.", "quantifier": "every dataset, split, hyperparameters, generator, gradients, learning rate from 0 to 100000", "why_tests_cant": "Every sequence of gradients and every number of epochs.", "anchors": ["medil/models.py:NeuroCausalFactorAnalysis._train_vae", "medil/models.py:NeuroCausalFactorAnalysis.fit"]}
{"id": "C152", "title": "The fitted NCFA weights respect the structure", "statement": "After NCFA.fit on an object with a biadjacency matrix (one latent per measurement, width 1), parameters.weights is 0 between each latent and measurement that the biadjacency matrix does not connect.", "quantifier": "every dataset, structure, optimizer and generator", "why_tests_cant": "All structures and data.", "anchors": ["medil/models.py:NeuroCausalFactorAnalysis.fit", "medil/models.py:NeuroCausalFactorAnalysis._train_vae"]}
{"id": "C153", "title": "Range of the initial values", "statement": "The weights and biases of a new network lie in [-1/sqrt(n), 1/sqrt(n)) for a layer with n inputs: n is the number of measurements in the encoder, the number of latents in the first decoder layers, the number of hidden units in the others.", "quantifier": "every size of network and every state of torch's generator", "why_tests_cant": "All sizes and all draws.", "anchors": ["medil/vae.py:SparseLinear.reset_parameters", "medil/vae.py:Encoder.__init__", "medil/vae.py:Decoder.__init__"]}
{"id": "C154", "title": "What a fitted NCFA network can reconstruct", "statement": "Whatever data NCFA was fitted to, and for however many epochs, with B training batches per epoch the entries of parameters.weights are at most 1/sqrt(M) + 3650*lr*B in absolute value, and the stored network returns for every input, in training and evaluation mode, reconstructions of absolute value at most (w+1)*(1/sqrt(M*w) + 3650*lr*B). (Explicit split indices skip the standardization, so larger data cannot be fitted.)", "quantifier": "every dataset, split, hyperparameters, generator, gradients, input", "why_tests_cant": "All data, gradients and inputs.", "anchors": ["medil/models.py:NeuroCausalFactorAnalysis.fit", "medil/vae.py:VariationalAutoencoder.forward"]}
{"id": "C155", "title": "Cost of the exact search", "statement": "On a dependence graph with n measurements and m edges, find_clique_min_cover makes at most m*(1 + c + c^2 + c^3) calls of branch, c = floor(3^(n/3)), hence at most 4*3^n*m, whatever the iteration order of sets.", "quantifier": "every dependence graph and every set order", "why_tests_cant": "All graphs of all sizes.", "anchors": ["medil/ecc_algorithms.py:find_clique_min_cover", "medil/ecc_algorithms.py:branch"]}
{"id": "C156", "title": "Interrupted training leaves files of one fit", "statement": "If NeuroCausalFactorAnalysis.fit is interrupted at any point (KeyboardInterrupt, crash, full disk) and the three result files can be read afterwards, they belong to the same fit: all three as before the call or all three from the call.", "quantifier": "every interruption point, object, data set, earlier files and random generator", "why_tests_cant": "All interruption points and earlier histories.", "anchors": ["medil/models.py:NeuroCausalFactorAnalysis.fit"]}
{"id": "C157", "title": "A completed fit repairs an interrupted one", "statement": "After any sequence of interrupted calls of NeuroCausalFactorAnalysis.fit, a call that completes leaves the same attributes and the same result files as if the interrupted calls had never been made (torch's generator being in the same state).", "quantifier": "every sequence of interrupted calls and every interruption point", "why_tests_cant": "All histories of interruptions.", "anchors": ["medil/models.py:NeuroCausalFactorAnalysis.fit"]}
{"id": "C158", "title": "Interrupted Gaussian fit keeps parameters of one fit", "statement": "If GaussianMCM.fit is interrupted at any point, the parameters (error means, error variances, weights) are all those from before the call or all those of the call.", "quantifier": "every interruption point, object, data set and optimizer", "why_tests_cant": "All interruption points.", "anchors": ["medil/models.py:GaussianMCM.fit"]}
{"id": "C159", "title": "A completed Gaussian fit after interrupted ones", "statement": "A GaussianMCM.fit that completes after any sequence of interrupted calls leaves the object as if the interrupted calls had not been made.", "quantifier": "every sequence of interrupted calls, data set and optimizer", "why_tests_cant": "All histories of interruptions.", "anchors": ["medil/models.py:GaussianMCM.fit"]}
{"id": "C160", "title": "Gaussian kernel is a covariance matrix", "statement": "For every array of points, sigmax != 0 and sigmay > 0, compute_gauss_kernel returns a symmetric positive semidefinite matrix with diagonal sigmay (the argument, not its square) and entries in (0, sigmay], equal to sigmay exactly for equal points; it is positive definite exactly if no two points are equal.", "quantifier": "every number of points, dimension, points and scales", "why_tests_cant": "All arrays of points.", "anchors": ["scripts/developing.py:compute_gauss_kernel"]}
{"id": "C161", "title": "Distribution of DevMedil samples", "statement": "On an object whose attributes W_hat_mle, D_hat_mle (method 'mle') or W_hat_lse, D_hat_lse ('lse') are a matrix W and a diagonal matrix of variances, DevMedil.sample with an ideal generator returns independent normal rows with mean zero and covariance W'W + D, and changes nothing but the generator.", "quantifier": "every W, every non-negative variances, both methods, all sample sizes", "why_tests_cant": "A distribution over all generator states.", "anchors": ["medil/models.py:DevMedil.sample"]}
{"id": "C162", "title": "Where the DevMedil optimizer starts", "statement": "The optimizer of fit 'mle' is started at init_W (row by row) followed by uniform numbers if init_W is set with num_latent x num_meas entries, otherwise at standard normal weights followed by uniform numbers; the optimizer of fit 'lse' at standard normal weights followed by absolute values of standard normal numbers, ignoring init_W. It is given the respective penalised loss and what is stored is its result.", "quantifier": "every object, dataset, penalty, generator and optimizer", "why_tests_cant": "All generators and optimizers.", "anchors": ["medil/models.py:DevMedil.fit_penalized_mle", "medil/models.py:DevMedil.fit_penalized_lse"]}
{"id": "C163", "title": "calculate_metrics", "statement": "On an object that has the attribute of the method (W_hat_mle, W_hat_lse) and no more true than estimated latents, calculate_metrics returns the least sum of squared differences of absolute weights over all matchings of latents, a permutation attaining it, the sum of squared differences of the numbers of shared latents (estimated: absolute weight above the threshold; true: non-zero weight) over ordered pairs of measurements, and the number of pairs that share a latent in only one of the two.", "quantifier": "every pair of weight matrices and every threshold", "why_tests_cant": "All matrices of all sizes.", "anchors": ["scripts/developing.py:calculate_metrics"]}
{"id": "C164", "title": "init_W of the wrong size is rejected", "statement": "A maximum likelihood fit of a DevMedil object whose init_W has another number of entries than num_latent * num_meas raises ValueError.", "quantifier": "every size of init_W, dataset and optimizer that evaluates the loss at its start", "why_tests_cant": "All sizes.", "anchors": ["medil/models.py:DevMedil.fit_penalized_mle"]}
{"id": "C165", "title": "GaussianMCM.sample works exactly after a fit that returned", "statement": "On an object created with any structure and graph, after any history of calls of fit, sample returns an array exactly when at least one of these calls returned (even if later ones raised). Otherwise it raises ValueError; the generator is then untouched if the object has no structure, and has made only the draw of the latents otherwise.", "quantifier": "every structure, graph, history of fits, optimizer, generator and sample size", "why_tests_cant": "All histories of calls.", "anchors": ["medil/models.py:GaussianMCM.sample", "medil/models.py:GaussianMCM.fit", "medil/models.py:Parameters.__init__"]}
{"id": "C166", "title": "Validation on data with another number of columns is rejected", "statement": "validation_mle and validation_lse of a fitted DevMedil object raise ValueError for data whose number of columns is not that of the data the object was fitted to.", "quantifier": "every estimate, dataset and penalty", "why_tests_cant": "All shapes.", "anchors": ["medil/models.py:DevMedil.validation_mle", "medil/models.py:DevMedil.validation_lse"]}
{"id": "C167", "title": "dcov_fast finds every dependence in large samples", "statement": "For independent rows with a common law with finite second moments and a positive critical value: from some number of rows on, with probability as close to 1 as wanted, estimate_UDG(sample, 'dcov_fast') joins every two columns that are not independent (linear or not, continuous or not).", "quantifier": "every law with finite second moments, number of columns, level, tolerance and probability space", "why_tests_cant": "A statement about all laws and about the limit of large samples.", "anchors": ["medil/independence_testing.py:estimate_UDG", "medil/independence_testing.py:dcov"]}
{"id": "C168", "title": "dcov_fast rarely joins a permuted column", "statement": "For every sample with N >= 2 rows and critical value c > 0: of the N! ways to permute one column, at most the fraction N/(2c(N-1)) gives an edge between this column and a given other one. So two independent columns of independent rows with a common law are joined with probability at most N/(2c(N-1)), whatever the law.", "quantifier": "every sample, pair of columns, level, and every law with independent columns", "why_tests_cant": "All permutations of all samples, and all laws.", "anchors": ["medil/independence_testing.py:estimate_UDG", "medil/independence_testing.py:dcov"]}
{"id": "C169", "title": "the level of dcov_fast", "statement": "For independent rows with a common law with finite second moments: the probability that estimate_UDG(sample, 'dcov_fast') joins two independent columns is from some number of rows on at most any number greater than 1/(1+2c^2) for the critical value c; for the default level 0.05 (c = 3.84) it ends up below 0.033, so below the level. The probability that the edges are not exactly the dependent pairs is then at most the sum of these bounds, up to any tolerance.", "quantifier": "every law with finite second moments, number of columns, level, tolerance and probability space", "why_tests_cant": "All laws, and the limit of large samples.", "anchors": ["medil/independence_testing.py:estimate_UDG", "medil/independence_testing.py:dcov"]}
{"id": "C170", "title": "xicorr averaged over all permutations", "statement": "For all data with n >= 2 rows: averaged over the n! orders of y, the statistic of xicorr(x, y) is 3T/(2n(n^2-1)+T), where T is the sum over the rows of m^2 - 1 with m the number of rows that share the value of y. This is never negative, and 0 exactly when y has no ties. Without ties and n >= 4 the average of its square is (n-2)(4n-7)/(10(n+1)(n-1)^2).", "quantifier": "every x and y of the same length, with and without ties, and every rule for breaking ties of x", "why_tests_cant": "An identity over all n! permutations for every n.", "anchors": ["medil/independence_testing.py:xicorr"]}
{"id": "C171", "title": "the level of xicor", "statement": "For independent rows with a common law: the probability that estimate_UDG(sample, 'xicor') joins two independent columns is, from some number of rows on, at most the significance level plus any tolerance.", "quantifier": "every law with independent columns, level and tolerance", "why_tests_cant": "All laws, and the limit of large samples.", "anchors": ["medil/independence_testing.py:estimate_UDG", "medil/independence_testing.py:xicorr"]}
{"id": "C172", "title": "xicor finds piecewise monotone relations", "statement": "If y is a function of x that is increasing or decreasing on each of k successive pieces of the line, the statistic of xicorr(x, y) is at least 1 - 3(2k-1)/(n+1). So from a number of rows on that depends only on k and the level, estimate_UDG(sample, 'xicor') joins two columns when the later one is such a function of the earlier one, even if they are uncorrelated.", "quantifier": "every sample, function with k monotone pieces, level, and every rule for breaking ties", "why_tests_cant": "All data sets and functions, of any size.", "anchors": ["medil/independence_testing.py:estimate_UDG", "medil/independence_testing.py:xicorr"]}
{"id": "C173", "title": "NCFA finds the structure behind its samples", "statement": "Rows are sampled independently from a model on a structure in which each latent has a pure child, and measurements are dependent exactly when they have a common parent (for the linear normal model: when no covariance of measurements with a common parent cancels out). Then NeuroCausalFactorAnalysis._compute_biadj with the test dcov_fast finds this structure, up to the order of the latents and whatever the set orders, with a probability that is from some number of rows on at least 1 - k*a - eps, for k the number of pairs without common parent, every a > 1/(1+2c^2) with the critical value c, and every eps > 0. In particular samples made by GaussianMCM.sample with an ideal generator give back the structure of the GaussianMCM.", "quantifier": "every structure with pure children, law with finite second moments, parameters, level, set order and tolerance", "why_tests_cant": "All laws and structures, and the limit of large samples.", "anchors": ["medil/models.py:NeuroCausalFactorAnalysis._compute_biadj", "medil/models.py:GaussianMCM.sample", "medil/independence_testing.py:estimate_UDG"]}
{"id": "C174", "title": "xicor finds every dependence in large samples", "statement": "For independent rows with any common law (no moments, any ties) in which two columns are dependent: xicorr of the two columns stays above some c > 0 that depends only on the law, and estimate_UDG(sample, 'xicor') joins all dependent columns, for every positive level, with a probability that tends to 1 with the number of rows. If moreover the columns have continuous distribution functions, the edges are exactly the dependent pairs, up to a probability of at most 1/(1+z^2) for each independent pair (z the critical value) plus any eps > 0.", "quantifier": "every law of the rows, level, way to sort ties, tolerance and number of rows from some number on", "why_tests_cant": "All laws, and the limit of large samples.", "anchors": ["medil/independence_testing.py:xicorr", "medil/independence_testing.py:xicor_test", "medil/independence_testing.py:estimate_UDG"]}
{"id": "C175", "title": "NCFA with xicor finds the structure behind its samples", "statement": "As C173 with the test xicor, for every law whose columns have continuous distribution functions (no moments needed): _compute_biadj finds the structure with a probability that is from some number of rows on at least 1 - k/(1+z^2) - eps, for k the number of pairs of measurements without common parent and z the critical value of the normal law for the level. In particular for samples of GaussianMCM.sample with non-constant measurements.", "quantifier": "every structure with pure children, law with continuous columns, parameters, level, set order, sort and tolerance", "why_tests_cant": "All laws and structures, and the limit of large samples.", "anchors": ["medil/models.py:NeuroCausalFactorAnalysis._compute_biadj", "medil/models.py:GaussianMCM.sample", "medil/independence_testing.py:estimate_UDG", "medil/independence_testing.py:xicorr"]}
{"id": "C176", "title": "the level of xicor for continuous data", "statement": "For independent rows with a common law in which two columns are independent and the later one has a continuous distribution function: the p-value of xicorr of these columns, for both settings of ties, is below a level in (0,1) with a probability that tends to this level as the number of rows grows, uniformly over all such laws (and, whatever the data without ties in y, the share of the orders of y with such a p-value tends to the level). So estimate_UDG(sample, 'xicor', level) joins independent columns with a probability that tends to the level, finds exactly the dependent pairs with a probability of at least 1 - k*level - eps for k independent pairs, and NeuroCausalFactorAnalysis with this test finds the structure behind its samples with such a probability.", "quantifier": "every law with continuous columns, level in (0,1), setting of ties, sort, structure with pure children and tolerance", "why_tests_cant": "A central limit theorem: all laws, in the limit of large samples.", "anchors": ["medil/independence_testing.py:xicorr", "medil/independence_testing.py:xicor_test", "medil/independence_testing.py:estimate_UDG", "medil/models.py:NeuroCausalFactorAnalysis._compute_biadj"]}
{"id": "C177", "title": "probability of each random structure", "statement": "With a generator whose permutations are independent and uniform, sample.biadj(num_meas=n, num_latent=l, density=d, one_pure_child=True) returns a given matrix with n + E ones (E = the rounded d*(n-l)*(l-1)) with probability (product of the numbers of pure children of the latents) * (product of the numbers of parents of the measurements) * (n-l)! / (n! * l^(n-l) * binom((n-l)(l-1), E)), and any other matrix with probability 0. So exactly the structures with a pure child for every latent, a parent for every measurement and n + E edges occur, and renaming latents and measurements does not change the probability.", "quantifier": "every number of latents and measurements, density in [0,1], matrix, pair of renamings and distribution of the generator with uniform permutations", "why_tests_cant": "A statement about a distribution over exponentially many matrices, for all sizes.", "anchors": ["medil/sample.py:biadj"]}
{"id": "C178", "title": "random structures are equally likely", "statement": "All structures that sample.biadj(..., one_pure_child=True) can return for given arguments are equally likely.", "quantifier": "every number of latents and measurements and density", "why_tests_cant": "A distribution over exponentially many matrices, for all sizes.", "anchors": ["medil/sample.py:biadj"]}
{"id": "C179", "title": "the random graph is uniform", "statement": "With a generator whose permutations are uniform, sample.biadj(num_meas=n, density=d, one_pure_child=False) returns the minimum cover of a random graph that is uniform among all graphs on n measurements with E edges (E = the rounded d*n(n-1)/2): each has probability 1/binom(n(n-1)/2, E), and every pair of measurements is joined with the same probability E/(n(n-1)/2).", "quantifier": "every number of measurements, density in [0,1], graph, pair and distribution of the generator with uniform permutations", "why_tests_cant": "A distribution over exponentially many graphs, for all sizes.", "anchors": ["medil/sample.py:biadj"]}
{"id": "C180", "title": "GaussianMCM and data of another width", "statement": "GaussianMCM.fit with a dataset whose number of columns is not the number of measurements of the structure raises ValueError, and the object stays usable: sample still works. More exactly, over all histories of fits with datasets of any widths: which calls return, what they change, when sample works, and which width a fresh object is bound to.", "quantifier": "every structure, history of datasets of any numbers of columns, optimizer, set order, generator and sample size", "why_tests_cant": "All histories, optimizers and shapes.", "anchors": ["medil/models.py:GaussianMCM.fit", "medil/models.py:GaussianMCM.sample"]}
{"id": "C181", "title": "distribution of random parameters", "statement": "With a generator whose draws are independent, sample.mcm(biadj=B) draws mutually independent parameters: every weight of an edge is 1/2 + 3/2*u with a fair sign, every error mean 2*u with a fair sign, every error variance 1/2 + 3/2*u, for u with the law of rng.random; so weights, means and the covariances of different measurements are zero on average, and the average variance of a measurement with p parents is p*E(1/2+3/2u)^2 + E(1/2+3/2u).", "quantifier": "every structure and every distribution of the generator with independent draws and fair coins", "why_tests_cant": "A statement about distributions, for all structures.", "anchors": ["medil/sample.py:mcm"]}
{"id": "C182", "title": "the least squares problem has a solution", "statement": "GaussianMCM.fit minimises the sum of squared differences between the sample covariance and the covariance implied by weights on the structure and error variances; for every dataset with positive definite sample covariance and every structure there are weights and variances that attain the minimum, so that a good enough optimizer returns them.", "quantifier": "every dataset, structure and optimizer", "why_tests_cant": "Existence of a minimum over an unbounded set, for all data and structures.", "anchors": ["medil/models.py:GaussianMCM.fit"]}
{"id": "C183", "title": "the order of the observations does not matter", "statement": "Reordering the rows of the dataset changes neither the outcome of GaussianMCM.fit and the attributes it sets, nor the graph and p-values of estimate_UDG, nor the statistic and p-value of xicorr.", "quantifier": "every dataset, permutation of its rows, object state and sorting algorithm", "why_tests_cant": "A statement about all permutations of all datasets.", "anchors": ["medil/independence_testing.py:xicorr", "medil/independence_testing.py:_xicorr", "medil/models.py:GaussianMCM.fit"]}
{"id": "C184", "title": "the order of the measurements does not matter", "statement": "Reordering the measurements (columns of the dataset, rows and columns of the graph) does not change whether find_heuristic_1pc and find_clique_min_cover find a structure nor with how many latents; GaussianMCM.fit learns the same graph and structure, and the least squares problem for its parameters has the same solutions, up to this reordering.", "quantifier": "every graph, structure, dataset, permutation of the measurements, set order and optimizer", "why_tests_cant": "A statement about all permutations of all graphs and datasets.", "anchors": ["medil/ecc_algorithms.py:find_heuristic_1pc", "medil/ecc_algorithms.py:find_clique_min_cover", "medil/models.py:GaussianMCM.fit"]}
{"id": "C185", "title": "units of the measurements and fitted parameters", "statement": "If a measurement is given in another unit (its column multiplied by c, plus any constant), the least squares weights of GaussianMCM.fit on it are multiplied by c, its error variance by c^2, and nothing else changes.", "quantifier": "every dataset, structure, factor and shift of every column, optimizer that finds global minima", "why_tests_cant": "A statement about all minimisers for all data and units.", "anchors": ["medil/models.py:GaussianMCM.fit"]}
{"id": "C186", "title": "NCFA.fit does not depend on units", "statement": "NeuroCausalFactorAnalysis.fit(dataset) gives the same network, losses, files, log and exceptions when each column of the dataset is multiplied by a positive number and shifted.", "quantifier": "every dataset, positive factors and shifts, object, seed and environment (no explicit split indices)", "why_tests_cant": "All units of all datasets and whole training runs.", "anchors": ["medil/models.py:NeuroCausalFactorAnalysis.fit"]}
{"id": "C187", "title": "NCFA structure learning depends only on ranks", "statement": "With the default method xicor, strictly increasing transformations of the measurements (a different one for each) change neither the graph and p-values of estimate_UDG nor the graph, structure and exceptions of NeuroCausalFactorAnalysis._compute_biadj; with dcov_fast this holds for changes of units (factors other than 0, shifts).", "quantifier": "every dataset, strictly increasing functions, level, object state, set order and sorting algorithm", "why_tests_cant": "All increasing functions on all datasets.", "anchors": ["medil/independence_testing.py:estimate_UDG", "medil/models.py:NeuroCausalFactorAnalysis._compute_biadj"]}
{"id": "C188", "title": "DevMedil ignores the order of the data and shifts", "statement": "DevMedil.fit leaves the same object and exception, and validation_mle and validation_lse return the same value, when the observations are reordered and constants are added to the measurements; the validation losses do not change when the measurements are reordered in the data and in the estimate.", "quantifier": "every dataset, permutation, shifts, method, penalties, object state, generator and optimizer", "why_tests_cant": "All permutations of all datasets, with arbitrary optimizers.", "anchors": ["medil/models.py:DevMedil.fit", "medil/models.py:DevMedil.validation_mle", "medil/models.py:DevMedil.validation_lse"]}
{"id": "C189", "title": "The estimated graph is BIC-optimal", "statement": "The graph that GaussianMCM estimates joins two measurements exactly when the Bayesian information criterion prefers a bivariate normal distribution with a covariance (five parameters) to all those without (four parameters).", "quantifier": "every dataset and every pair of measurements", "why_tests_cant": "All datasets, and an optimum over all normal distributions.", "anchors": ["medil/models.py:GaussianMCM.fit", "medil/models.py:GaussianMCM._estimate_udg"]}
{"id": "C190", "title": "The heuristic takes polynomial time", "statement": "find_heuristic_1pc, advertised as a polynomial time heuristic under the one-pure-child assumption, ends after a number of search steps that is bounded by a polynomial in the number of measurements.", "quantifier": "every one-pure-child structure, its dependence graph and every iteration order of Python's sets", "why_tests_cant": "All sizes; a growth rate cannot be tested.", "anchors": ["medil/ecc_algorithms.py:find_heuristic_1pc", "medil/ecc_algorithms.py:max_cliques"]}
{"id": "C191", "title": "Interrupted DevMedil fit keeps an estimate of one fit", "statement": "If DevMedil.fit is interrupted at any point, W_hat and D_hat are both those from before the call or both those of the call.", "quantifier": "every interruption point, object, dataset, method, penalties, generator and optimizer", "why_tests_cant": "Every crash point of every call.", "anchors": ["medil/models.py:DevMedil.fit", "medil/models.py:DevMedil.fit_penalized_mle", "medil/models.py:DevMedil.fit_penalized_lse"]}
{"id": "C192", "title": "A completed DevMedil fit after interrupted ones", "statement": "A DevMedil.fit that is not interrupted, after any history of interrupted fits and assignments of init_W, stores what the same call stores in a new object with the same generator state and init_W; if it raises, it keeps W_hat and D_hat.", "quantifier": "every history of interrupted calls, dataset, method, penalties, generator and optimizer", "why_tests_cant": "All histories and crash points.", "anchors": ["medil/models.py:DevMedil.fit", "medil/models.py:DevMedil.fit_penalized_mle", "medil/models.py:DevMedil.fit_penalized_lse"]}
{"id": "C193", "title": "Parallel testing does not change the estimated graph", "statement": "With method 'xicor' or 'dcov_big' (or any test), the graph and p-values of estimate_UDG do not depend on the number of worker processes, the chunk size or the order in which they finish: entry (i,j) and (j,i), i<j, is the test of columns i and j, the diagonal is 0. If tests raise, the exception is that of the first failing pair in row-major order. As long as no worker is killed, every execution ends, after at most three steps per chunk.", "quantifier": "every number of cores, chunk size, schedule of the processes, sample, test and level", "why_tests_cant": "All interleavings of the worker processes and the result handler.", "anchors": ["medil/independence_testing.py:estimate_UDG"]}
{"id": "C194", "title": "A killed worker does not hang estimate_UDG", "statement": "With method 'xicor' or 'dcov_big', estimate_UDG returns the same result or raises even if worker processes are killed.", "quantifier": "every schedule with killed workers, number of cores, chunk size, sample, test and level", "why_tests_cant": "All crash points in all interleavings.", "anchors": ["medil/independence_testing.py:estimate_UDG"]}
{"id": "C195", "title": "Exactness on chordal graphs", "statement": "On every chordal graph (every cycle of length at least four has a chord) find_clique_min_cover returns an edge clique cover with the smallest possible number of cliques.", "quantifier": "every chordal graph on at least one vertex and every iteration order of sets", "why_tests_cant": "Infinitely many graphs and all set orders.", "anchors": ["medil/ecc_algorithms.py:find_clique_min_cover", "medil/graph.py:ReducibleUndDepGraph.rule_1", "medil/graph.py:ReducibleUndDepGraph.rule_2", "medil/graph.py:ReducibleUndDepGraph.rule_3"]}
{"id": "C196", "title": "Exactness on sparse graphs", "statement": "On every 2-degenerate graph (every set of vertices contains one with at most two neighbours in it: trees, cycles, outerplanar and series-parallel graphs), and more generally on every graph without four mutually adjacent vertices in which every set of vertices has a vertex whose neighbours in the set form a disjoint union of cliques, find_clique_min_cover returns an edge clique cover with the smallest possible number of cliques.", "quantifier": "every such graph on at least one vertex and every iteration order of sets", "why_tests_cant": "Infinitely many graphs and all set orders.", "anchors": ["medil/ecc_algorithms.py:find_clique_min_cover", "medil/graph.py:ReducibleUndDepGraph.rule_1", "medil/graph.py:ReducibleUndDepGraph.rule_2"]}
{"id": "C197", "title": "The estimated graph is a graph in any arithmetic", "statement": "Whatever rounding, overflow, nan and orders of summation do to the numbers: the graph returned by estimate_UDG with dcov_fast has no loops and is symmetric (multiplication being commutative), and the graph GaussianMCM estimates is symmetric, without loops as soon as the comparison log(1) < -log(N)/N comes out false; with one column GaussianMCM raises ValueError.", "quantifier": "every floating-point arithmetic and every sample in it", "why_tests_cant": "All arithmetics, all data, nan and infinities included.", "anchors": ["medil/independence_testing.py:estimate_UDG", "medil/independence_testing.py:dcov", "medil/models.py:GaussianMCM._estimate_udg"]}
{"id": "C198", "title": "Rounding does not change the dcov_fast graph", "statement": "For every sample and level for which no test statistic equals the critical value exactly, there is an accuracy such that every floating-point arithmetic of that accuracy (rounding errors, underflow, overflow, computed critical value), in whatever order numpy and BLAS add up and with or without fused multiply-add, returns the graph of exact arithmetic, also when columns are constant.", "quantifier": "every sample, level, arithmetic and order of summation", "why_tests_cant": "All roundings and all orders of summation.", "anchors": ["medil/independence_testing.py:estimate_UDG", "medil/independence_testing.py:dcov"]}
{"id": "C199", "title": "Rounding does not change GaussianMCM's graph", "statement": "For every dataset for which the statistic of no pair of varying columns equals the threshold exactly, there is an accuracy such that every floating-point arithmetic of that accuracy, in whatever order sums are computed, gives the graph of exact arithmetic, also when columns are constant (where computed covariances and correlations are pure rounding noise or nan).", "quantifier": "every dataset with at least two rows, arithmetic and order of summation", "why_tests_cant": "All roundings and all orders of summation.", "anchors": ["medil/models.py:GaussianMCM._estimate_udg"]}
{"id": "C200", "title": "Rounding does not change the xicor graph", "statement": "For every sample and level for which no exact p-value of xicorr equals the level, there is an accuracy such that every floating-point arithmetic of that accuracy, in whatever order sums are computed, gives the graph of exact arithmetic in estimate_UDG with xicor.", "quantifier": "every sample with at least two rows, level, arithmetic, order of summation and treatment of ties by argsort", "why_tests_cant": "All roundings and all orders of summation.", "anchors": ["medil/independence_testing.py:estimate_UDG", "medil/independence_testing.py:xicorr", "medil/independence_testing.py:_xicorr", "medil/independence_testing.py:xicor_test"]}
{"id": "C201", "title": "The clique cover search leaves every array alone", "statement": "find_clique_min_cover changes no array that existed when it was called - not its argument, nor anything else - whether it returns or raises; with arrays as shared references it returns or raises exactly what the model with arrays as values does.", "quantifier": "every 0/1 array, memory contents, schedule and number of passes", "why_tests_cant": "The search writes in place at every step; one array not copied would be enough.", "anchors": ["medil/ecc_algorithms.py:find_clique_min_cover", "medil/ecc_algorithms.py:branch", "medil/graph.py:ReducibleUndDepGraph", "medil/graph.py:UndirectedDependenceGraph.rm_edges"]}
{"id": "C202", "title": "The returned cover is a new array", "statement": "The array returned by find_clique_min_cover is a new one, so that a caller who changes it changes nothing else.", "quantifier": "every 0/1 array, schedule and number of passes", "why_tests_cant": "Which path returned depends on the input.", "anchors": ["medil/ecc_algorithms.py:find_clique_min_cover", "medil/ecc_algorithms.py:add_isolated_verts"]}
{"id": "C203", "title": "Working on a reducible copy leaves the original alone", "statement": "Whatever methods are called on the result of reducible_copy, and however they end, the arrays that existed before the copy was made keep their contents.", "quantifier": "every graph, every history of rule_1, rule_2, rule_3, cover_edges, reduzieren; copies of copies", "why_tests_cant": "All histories.", "anchors": ["medil/graph.py:ReducibleUndDepGraph.__init__", "medil/graph.py:ReducibleUndDepGraph.rule_3", "medil/graph.py:UndirectedDependenceGraph.reducible_copy"]}
{"id": "C204", "title": "num_edges is accurate for every graph object", "statement": "After every history of making arrays and UndirectedDependenceGraph objects, add_edges and rm_edges, the num_edges of every object is the number of edges of its adj_matrix.", "quantifier": "every history over any number of arrays and objects", "why_tests_cant": "All histories and all sharing.", "anchors": ["medil/graph.py:UndirectedDependenceGraph.__init__", "medil/graph.py:UndirectedDependenceGraph.add_edges", "medil/graph.py:UndirectedDependenceGraph.rm_edges"]}
{"id": "C205", "title": "A reducible copy describes the current graph", "statement": "After every history of add_edges, rm_edges and make_aux on a graph object, reducible_copy gives the copy that a new object with the current matrix would give.", "quantifier": "every matrix and history", "why_tests_cant": "All histories.", "anchors": ["medil/graph.py:UndirectedDependenceGraph.make_aux", "medil/graph.py:UndirectedDependenceGraph.reducible_copy", "medil/graph.py:ReducibleUndDepGraph.__init__"]}
{"id": "C206", "title": "Later edits of the original do not affect a copy", "statement": "Removing edges from a graph object after a reducible copy of it was made does not change what method calls on the copy compute (cover, number of edges, matrix, exception).", "quantifier": "every graph, every set of removed edges, every history of method calls on the copy", "why_tests_cant": "All interleavings.", "anchors": ["medil/graph.py:ReducibleUndDepGraph.rule_1", "medil/graph.py:UndirectedDependenceGraph.rm_edges", "medil/graph.py:ReducibleUndDepGraph.__init__"]}
{"id": "C207", "title": "Generators of maximal cliques do not interfere", "statement": "However calls of next on any number of max_cliques generators are interleaved with each other and with changes the caller makes to its arrays and to the lists it was given, every generator answers the maximal cliques of its graph, as the graph was at the first next, one after the other and then StopIteration; and no array or list of the caller changes unless the caller changes it.", "quantifier": "every history of making and changing arrays, making generators, next calls and changes of yielded lists; every iteration order of sets", "why_tests_cant": "All interleavings of generators that share arrays and work on mutable sets and lists.", "anchors": ["medil/ecc_algorithms.py:max_cliques"]}
{"id": "C208", "title": "max_cliques lists the cliques of the graph it was called with", "statement": "A generator made by max_cliques answers the maximal cliques of the graph as it was when max_cliques was called, whatever happens to the array afterwards.", "quantifier": "every history between the call and the first next, and after", "why_tests_cant": "All interleavings.", "anchors": ["medil/ecc_algorithms.py:max_cliques"]}
{"id": "C209", "title": "A quiet fit prints nothing, a verbose fit prints its log", "statement": "Whatever way a call of NeuroCausalFactorAnalysis.fit ends, an object made with verbose=True prints exactly the lines that the call adds to its training.log, in that order, and an object that is not verbose prints nothing; no other log file changes, and a call that succeeds adds at least one line.", "quantifier": "every data set, split, object, file system and way the call ends", "why_tests_cant": "All outcomes, hyperparameters and numbers of epochs.", "anchors": ["medil/models.py:NeuroCausalFactorAnalysis.log", "medil/models.py:NeuroCausalFactorAnalysis.fit"]}
{"id": "C210", "title": "Graphs given as floating point arrays", "statement": "For every symmetric graph with unit diagonal, find_clique_min_cover returns the same cover when the adjacency matrix is stored as a 0/1 floating point array as when it is stored as an integer array.", "quantifier": "every undirected graph and every set order", "why_tests_cant": "All graphs.", "anchors": ["medil/ecc_algorithms.py:find_clique_min_cover", "medil/ecc_algorithms.py:branch", "medil/graph.py:UndirectedDependenceGraph"]}
{"id": "C211", "title": "Structures in any integer type", "statement": "sfd and recover_ug give the same results for 0/1 arrays of any numpy integer type with at least 8 bits, signed or unsigned, as with unbounded integers, as long as the squared number of measurements times latents is below 2^63.", "quantifier": "every pair of structures and pair of integer types", "why_tests_cant": "All sizes and types; overflow needs at least 256 latents.", "anchors": ["medil/evaluate.py:sfd", "medil/evaluate.py:recover_ug"]}
{"id": "C212", "title": "Weight distances in any integer type", "statement": "min_perm_squared_l2_dist and min_perm_squared_l2_dist_abs return the exact minimal distance and its permutation for weights stored in any numpy integer type with 8 to 64 bits.", "quantifier": "every pair of integer weight matrices with at most as many true as predicted rows and every integer type", "why_tests_cant": "All matrices and types.", "anchors": ["medil/evaluate.py:min_perm_squared_l2_dist", "medil/evaluate.py:min_perm_squared_l2_dist_abs"]}
{"id": "C213", "title": "The estimated error variances of NCFA", "statement": "For given reconstructions, none of which is exact, the loss of NeuroCausalFactorAnalysis is minimal if the estimated error variance of every measurement is its mean squared residual.", "quantifier": "every batch, network output and number of measurements", "why_tests_cant": "All real residuals and variances.", "anchors": ["medil/models.py:NeuroCausalFactorAnalysis._elbo_gaussian"]}
{"id": "C214", "title": "What the encoder variance layer is trained for", "statement": "After the first epoch of a completed fit, changing the variance layer of the encoder changes the training loss of a batch only by beta times the change of the divergence, whatever the decoder does; the derivative of the loss with respect to that layer is beta times that of the divergence, and (for beta > 0) the loss is minimal exactly if all variances of the batch are 1.", "quantifier": "every dataset, completed fit, training batch after the first epoch, and all weights", "why_tests_cant": "All weights and directions of change.", "anchors": ["medil/models.py:NeuroCausalFactorAnalysis._train_vae", "medil/models.py:NeuroCausalFactorAnalysis._valid_vae", "medil/vae.py:VariationalAutoencoder.latent_sample"]}
{"id": "C215", "title": "Weight distances in floating point", "statement": "In floating-point arithmetic with unit roundoff u and underflow error eta, without overflow and in whatever order sums are computed, min_perm_squared_l2_dist and min_perm_squared_l2_dist_abs return a distance that differs from the exact distance of the returned matching by a relative error of at most (1+u)^(mn+3)-1 and an absolute error of at most mn*eta*(1+u)^(mn), and no matching is better by more than twice these errors. In double precision without underflow and with at most 2^40 entries the returned matching is optimal up to a factor 1+2^-11, and perfect with distance 0 if a perfect matching exists.", "quantifier": "every pair of weight matrices with at most as many true as predicted rows, every arithmetic that satisfies the standard model, every order of summation", "why_tests_cant": "All matrices and rounding errors.", "anchors": ["medil/evaluate.py:min_perm_squared_l2_dist", "medil/evaluate.py:min_perm_squared_l2_dist_abs"]}
{"id": "C216", "title": "NaN in weight matrices", "statement": "If an entry of the predicted or of the true weight matrix is NaN, min_perm_squared_l2_dist and min_perm_squared_l2_dist_abs do not fail: they return the distance NaN and match the rows in the given order.", "quantifier": "every pair of weight matrices with at most as many true as predicted rows, every position of the NaN, every order of summation", "why_tests_cant": "All matrices, all positions.", "anchors": ["medil/evaluate.py:min_perm_squared_l2_dist", "medil/evaluate.py:min_perm_squared_l2_dist_abs"]}
{"id": "C217", "title": "Missing values isolate a measurement", "statement": "A measurement with a missing value (NaN) has no edge in the graph of estimate_UDG with method dcov_fast, nor in the graph that GaussianMCM estimates; the edges among the other measurements do not depend on it.", "quantifier": "every dataset with two or more observations, every position of the NaN, every arithmetic in which operations on NaN give NaN", "why_tests_cant": "All datasets, all positions, all roundings.", "anchors": ["medil/independence_testing.py:estimate_UDG", "medil/independence_testing.py:dcov", "medil/models.py:GaussianMCM._estimate_udg"]}
{"id": "C218", "title": "find_clique_min_cover never runs forever", "statement": "For every symmetric 0/1 matrix, whatever its diagonal, find_clique_min_cover returns or raises an exception after finitely many steps.", "quantifier": "every size, every symmetric 0/1 matrix with any diagonal, every set order", "why_tests_cant": "Non-termination cannot be observed by a test; all diagonals.", "anchors": ["medil/ecc_algorithms.py:find_clique_min_cover", "medil/graph.py:ReducibleUndDepGraph.rule_2", "medil/graph.py:ReducibleUndDepGraph.rule_1"]}
{"id": "C219", "title": "How far rounding can move the dcov_fast test", "statement": "In floating-point arithmetic with relative errors of at most u, in whatever order sums are computed, the test statistic of two non-constant measurements in estimate_UDG (dcov_fast) differs from its exact value by at most an explicit multiple of D_i D_j/(d_i d_j), where D is the largest and d the mean distance of two observations. In double precision with 2 to 2^20 observations the factor is N^3/2^45: edges are decided as in exact arithmetic unless the statistic is that close to the critical value (plus the error of the computed critical value).", "quantifier": "every dataset, every pair of non-constant measurements, every arithmetic with bounded relative error, every order of summation, with or without fused multiply-add", "why_tests_cant": "All datasets and roundings.", "anchors": ["medil/independence_testing.py:dcov", "medil/independence_testing.py:estimate_UDG"]}
{"id": "C220", "title": "Matrices that are not symmetric", "statement": "For every 0/1 matrix with at least one vertex, symmetric or not, max_cliques yields at least one list and ends; in every list each vertex is an out-neighbour of all earlier ones and no other vertex is an out-neighbour of all of them. find_heuristic_1pc ends: it raises TypeError, or Exception (the latter only for a matrix that is not symmetric), or returns a structure that explains every nonzero entry, in which every measurement has a parent and every latent a child.", "quantifier": "every size >= 1, every 0/1 matrix with any diagonal, every set order", "why_tests_cant": "All matrices and set orders.", "anchors": ["medil/ecc_algorithms.py:max_cliques", "medil/ecc_algorithms.py:find_heuristic_1pc"]}
{"id": "C221", "title": "One triangle of the adjacency matrix is enough", "statement": "find_heuristic_1pc returns the same structure, up to the order of the latents, for the upper triangle of a symmetric adjacency matrix as for the whole matrix.", "quantifier": "every graph on which both calls return, every set order", "why_tests_cant": "All graphs and set orders.", "anchors": ["medil/ecc_algorithms.py:max_cliques", "medil/ecc_algorithms.py:find_heuristic_1pc"]}
{"id": "C222", "title": "Densities outside [0, 1]", "statement": "sample.biadj treats a density below 0 like 0 (no edges beyond one parent per measurement) and a density above 1 like 1 (all of them).", "quantifier": "every argument list, every density, every outcome of the random permutations", "why_tests_cant": "All densities and random outcomes.", "anchors": ["medil/sample.py:biadj"]}
{"id": "C223", "title": "A fitted GaussianMCM is independent of the user's arrays", "statement": "fit and sample of GaussianMCM change no array that existed before (dataset, structure, graph, arrays of other objects); the parameters of a fit that returned are in new arrays, and what sample returns does not change when the dataset or the arrays passed to the constructor are later overwritten in place, nor by calls on other objects made from the same arrays.", "quantifier": "every history of making arrays, overwriting them in place, constructing objects from them, fits and samples; every optimizer, generator and set order", "why_tests_cant": "Needs all histories of aliasing and in-place writes.", "anchors": ["medil/models.py:GaussianMCM.fit", "medil/models.py:GaussianMCM.sample", "medil/models.py:MedilCausalModel.__init__"]}
{"id": "C224", "title": "A structure passed to GaussianMCM is kept", "statement": "After GaussianMCM(biadj=B), fit keeps the structure B whatever is done with arrays between the constructor and fit.", "quantifier": "every history of making arrays, overwriting them in place, constructing objects, fits and samples", "why_tests_cant": "Needs all histories of aliasing and in-place writes.", "anchors": ["medil/models.py:MedilCausalModel.__init__", "medil/models.py:GaussianMCM.fit"]}
{"id": "C225", "title": "dcov_fast is a chi-square test", "statement": "estimate_UDG with method dcov_fast and a significance level in (0, 1] joins two measurements exactly if both vary, their statistic is not negative and a chi-square variable with one degree of freedom exceeds the statistic with probability at most the level; with any other level the graph is empty. No p-values are returned.", "quantifier": "every sample and every significance level, inside or outside (0, 1]", "why_tests_cant": "All samples and levels; unit tests see a few.", "anchors": ["medil/independence_testing.py:estimate_UDG"]}
{"id": "C226", "title": "A larger significance level only adds edges", "statement": "If significance_level is raised, estimate_UDG returns at least the edges it returned before, for every method.", "quantifier": "every sample, method and pair of positive levels", "why_tests_cant": "All samples and pairs of levels.", "anchors": ["medil/independence_testing.py:estimate_UDG"]}
{"id": "C227", "title": "Default test on small samples", "statement": "estimate_UDG with its default arguments (dcov_fast, level 0.05) returns a graph without edges for every sample of at most eight observations, however dependent the measurements are, and for every larger number of observations there is a sample with an edge. The critical value it uses is between 3.84 and 3.8416.", "quantifier": "every sample size, number of measurements and data", "why_tests_cant": "All real samples; unit tests see a few.", "anchors": ["medil/independence_testing.py:estimate_UDG"]}
{"id": "C228", "title": "Infinite values", "statement": "If a column of a sample of at least two rows and two columns contains an infinite value, it has no edge in the graph of estimate_UDG with dcov_fast, nor in the graph of GaussianMCM. If a weight matrix given to min_perm_squared_l2_dist or min_perm_squared_l2_dist_abs contains an infinite value, the distance is plus infinity or nan and the rows are matched in the given order.", "quantifier": "every sample and weight matrices, every position of the infinite values, every rounding and order of summation", "why_tests_cant": "Any position and number of infinite values, and any floating-point library that obeys IEEE 754; unit tests run one library on a few arrays.", "anchors": ["medil/independence_testing.py:dcov", "medil/independence_testing.py:estimate_UDG", "medil/models.py:GaussianMCM._estimate_udg", "medil/evaluate.py:min_perm_squared_l2_dist", "medil/evaluate.py:min_perm_squared_l2_dist_abs"]}
{"id": "C229", "title": "xicor sees only the order, bit by bit", "statement": "estimate_UDG with method xicor gives bit by bit the same p-values and the same graph for two samples whose columns are ordered in the same way, in floating-point arithmetic and with infinite values (but without nan): replacing an outlier by infinity changes nothing as long as it stays the largest.", "quantifier": "every pair of samples whose columns are ordered alike, every floating-point arithmetic whose negation reverses comparisons", "why_tests_cant": "All samples and all roundings.", "anchors": ["medil/independence_testing.py:_xicorr", "medil/independence_testing.py:xicorr", "medil/independence_testing.py:estimate_UDG"]}
{"id": "C230", "title": "Missing values and xicor", "statement": "If a column of the sample contains nan, it has no edge in the graph of estimate_UDG with method xicor.", "quantifier": "every sample, every position of missing values, every level", "why_tests_cant": "Any floating-point arithmetic and data; the failure needs a column ordered like argsort's order of an array of nan.", "anchors": ["medil/independence_testing.py:_xicorr", "medil/independence_testing.py:xicorr", "medil/independence_testing.py:estimate_UDG"]}
{"id": "C231", "title": "NCFA on a GPU", "statement": "NeuroCausalFactorAnalysis.fit returns on a machine with a GPU whenever it returns on a machine without.", "quantifier": "every dataset, split, setting, generator and optimizer", "why_tests_cant": "Needs every dataset and setting, and a GPU.", "anchors": ["medil/models.py:NeuroCausalFactorAnalysis.fit", "medil/models.py:NeuroCausalFactorAnalysis._train_vae", "medil/vae.py:SparseLinear"]}
{"id": "C232", "title": "Editing the weights of a fitted NCFA", "statement": "Editing entries of parameters.weights of a fitted NeuroCausalFactorAnalysis (for example setting small weights to zero) does not change what the fitted network computes.", "quantifier": "every history of fits of several objects, of edits, and of arrays kept by the user", "why_tests_cant": "All histories and all inputs of the network.", "anchors": ["medil/models.py:NeuroCausalFactorAnalysis.fit", "medil/vae.py:Decoder"]}
{"id": "C233", "title": "p-values of the wrong shape", "statement": "estimate_UDG given an array of p-values rejects arrays that are not square matrices with one row per column of the sample.", "quantifier": "arrays of p-values of every number of dimensions and shape, every level", "why_tests_cant": "All shapes and entries.", "anchors": ["medil/independence_testing.py:estimate_UDG"]}
{"id": "C234", "title": "Models used from several threads", "statement": "GaussianMCM objects can be used from several threads: if no two threads share an object, the calls of fit and sample of each thread return, and leave in its objects, what they do when the thread is alone, however the threads alternate (objects that are sampled having their own rng).", "quantifier": "every number of threads, every list of calls of each thread, every interleaving of their reads and writes of attributes and draws from generators", "why_tests_cant": "All interleavings.", "anchors": ["medil/models.py:GaussianMCM.fit", "medil/models.py:GaussianMCM.sample"]}
{"id": "C235", "title": "One model fitted in two threads", "statement": "If one GaussianMCM object is fitted from several threads at the same time, its parameters are afterwards those of one of the calls.", "quantifier": "every number of threads and of calls, every interleaving", "why_tests_cant": "All interleavings.", "anchors": ["medil/models.py:GaussianMCM.fit"]}
{"id": "C236", "title": "Several processes fit at the same time", "statement": "If several processes call NeuroCausalFactorAnalysis.fit at the same time with the same path, the result files found there when all have returned, if all can be read, come from one and the same fit.", "quantifier": "every number of processes, every data, hyperparameters and generator of each, every interleaving of their log lines, file openings and file writes", "why_tests_cant": "All interleavings.", "anchors": ["medil/models.py:NeuroCausalFactorAnalysis.fit", "medil/models.py:NeuroCausalFactorAnalysis.log"]}
{"id": "C237", "title": "The default test of NCFA needs six observations", "statement": "With the default hyperparameters of NeuroCausalFactorAnalysis (test xicor at level 0.05) two to five observations without ties in any measurement always give a graph without edges, so that one latent per measurement is learned, however strongly the measurements depend; from six observations on, two measurements one of which is a strictly monotone function of the other are always joined.", "quantifier": "every dataset without ties, every number of measurements, every way to sort ties, every set order", "why_tests_cant": "Every dataset of a given size, and every size above five.", "anchors": ["medil/independence_testing.py:xicor_test", "medil/independence_testing.py:xicorr", "medil/independence_testing.py:estimate_UDG", "medil/models.py:NeuroCausalFactorAnalysis.__init__"]}
{"id": "C238", "title": "show_obs_dcor_mat shows the matrix", "statement": "show_obs_dcor_mat draws one cell for each entry, entry (i,j) at column j and row i, coloured on the scale from 0 to 1, so that two matrices with entries between 0 and 1 have the same picture only if they are equal; with a threshold it shows 1 exactly where the entry exceeds the threshold and 0 elsewhere; with print_val each cell has the rounded value as text and otherwise none has; for a square matrix both axes are labelled X1, X2, ... at every position.", "quantifier": "every matrix without NaN, every threshold, every rounding function", "why_tests_cant": "All matrices and thresholds.", "anchors": ["medil/visualize.py:show_obs_dcor_mat"]}
{"id": "C239", "title": "str(parameters) shows the current parameters", "statement": "str(model.parameters) has one entry per attribute, in the order in which the attributes were first assigned, with the value last assigned; after a complete fit of a GaussianMCM these are the parameterization and the means, variances and weights of this fit, in this order, after one of NeuroCausalFactorAnalysis the parameterization, the weights and the network of this fit, whatever was assigned to them before.", "quantifier": "every history of assignments by fits and by the user, every way values are formatted", "why_tests_cant": "All histories of assignments.", "anchors": ["medil/models.py:Parameters.__init__", "medil/models.py:Parameters.__str__", "medil/models.py:GaussianMCM.fit", "medil/models.py:NeuroCausalFactorAnalysis.fit"]}
{"id": "C240", "title": "NCFA with dcov_fast needs nine observations", "statement": "With the test dcov_fast at level 0.05 NeuroCausalFactorAnalysis without a given graph learns from two to eight observations one latent per measurement, whatever the data are; for every number of observations from nine on there are data from which it learns one latent with two children.", "quantifier": "every dataset of two to eight observations, every number of measurements, every set order; every larger number of observations", "why_tests_cant": "Every dataset of a given size, and every size above eight.", "anchors": ["medil/independence_testing.py:estimate_UDG", "medil/independence_testing.py:dcov", "medil/models.py:NeuroCausalFactorAnalysis._compute_biadj"]}
{"id": "C241", "title": "Threads that learn from the same data", "statement": "If a GaussianMCM without a structure is fitted to the same dataset by any number of threads at once, and each of the calls, made alone, succeeds and learns the same structure, then under every interleaving of the calls no call raises, and when all have finished the object is as after any one of the calls, made alone.", "quantifier": "every schedule of every number of threads, each with any number of calls; every dataset, every set order of each call, every minimizer", "why_tests_cant": "Every interleaving of the assignments and reads of concurrent calls.", "anchors": ["medil/models.py:GaussianMCM.fit", "medil/models.py:GaussianMCM._compute_biadj", "medil/models.py:GaussianMCM._estimate_udg"]}
{"id": "C242", "title": "Threads that sample from one model", "statement": "If any number of threads call sample on GaussianMCMs, and each of the calls, made alone, succeeds, then under every interleaving no call raises and no object changes, and every result has the size asked for and is a sample of the fitted model: standard normal latents drawn at a state of the generator, times the weights, plus errors with the fitted means and variances drawn at a later state. The results need not be those of the calls made one after another in any order, although the generator is seeded.", "quantifier": "every schedule of every number of threads, each with any number of calls of any sizes, on any objects with own or shared generators; every generator", "why_tests_cant": "Every interleaving of the draws of concurrent calls.", "anchors": ["medil/models.py:GaussianMCM.sample"]}
{"id": "C243", "title": "Sampling while a model is refitted", "statement": "If any number of threads call fit and sample on GaussianMCMs that have been fitted, with any datasets and sizes, then under every interleaving no call raises, no structure changes, the parameters are present at every moment with one row of weights per latent, and every sample has the size asked for. A sample taken during a fit uses error means, error variances and weights each of which is the one before or that of one of the fits, but perhaps of different ones, or weights that are all 0; so it need not be a sample of any fitted model.", "quantifier": "every schedule of every number of threads, each with any number of calls of fit and sample on any fitted objects; every dataset, size, generator and minimizer", "why_tests_cant": "Every interleaving of the assignments and reads of concurrent calls.", "anchors": ["medil/models.py:GaussianMCM.fit", "medil/models.py:GaussianMCM.sample"]}
