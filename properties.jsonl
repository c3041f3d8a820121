{"id": "C01", "title": "Node-edge incidence matrix is exact", "statement": "SimplicialComplex(nodes, edges, ...).incidence_matrix(1) has one column per edge in list order; the column of edge (u, v) with u != v is -1 in row u, +1 in row v and 0 elsewhere. Construction raises IndexError exactly when some endpoint is outside [-len(nodes), len(nodes)).", "quantifier": "all node lists and all edge lists (any order, orientation, repetition)", "why_tests_cant": "tests check one 7-node example; the claim is about every list and every out-of-range endpoint", "anchors": ["pytspl/simplicial_complex/simplicial_complex.py:SimplicialComplex.edges_to_B1", "pytspl/simplicial_complex/simplicial_complex.py:SimplicialComplex.incidence_matrix"]}
{"id": "C02", "title": "Edge-triangle incidence matrix is exact", "statement": "incidence_matrix(2) has one column per triangle in list order; the column of triangle [a, b, c] is +1 at the position of edge ab, +1 at edge bc, -1 at edge ac and 0 elsewhere, where an edge is looked up in either orientation. Construction raises ValueError exactly when all edge endpoints are valid and a triangle is not a triple or one of its edges is absent, and succeeds exactly when all endpoints are valid and all triangles are triples with their edges present.", "quantifier": "all edge lists and triangle lists", "why_tests_cant": "one example cannot cover every orientation, duplicate or missing edge", "anchors": ["pytspl/simplicial_complex/simplicial_complex.py:SimplicialComplex.triangles_to_B2", "pytspl/simplicial_complex/simplicial_complex.py:SimplicialComplex.incidence_matrix"]}
{"id": "C03", "title": "Boundary of a boundary is zero", "statement": "For every simplicial complex the library builds, incidence_matrix(1) @ incidence_matrix(2) == 0. (False of the code in general: B2 ignores stored orientation. Holds, and is proved, when each triangle [a,b,c] has its edges stored as (a,b), (b,c), (a,c).)", "quantifier": "all complexes accepted by the constructor", "why_tests_cant": "tests check it on one ascending-edge dataset; shipped datasets with descending edges (anaheim, winnipeg, ...) violate it", "anchors": ["pytspl/simplicial_complex/simplicial_complex.py:SimplicialComplex.edges_to_B1", "pytspl/simplicial_complex/simplicial_complex.py:SimplicialComplex.triangles_to_B2"]}
{"id": "C04", "title": "Exactly when the boundary identity holds", "statement": "For a complex on a simple graph (no loops, no repeated or doubly oriented edges), (B1 @ B2)[:, t] == 0 if and only if the three edges of triangle t = [a,b,c] are stored consistently: (a,b), (b,c) and (a,c), or all three reversed.", "quantifier": "all complexes on simple graphs, all triangles", "why_tests_cant": "an iff over all orientations needs a proof", "anchors": ["pytspl/simplicial_complex/simplicial_complex.py:SimplicialComplex.edges_to_B1", "pytspl/simplicial_complex/simplicial_complex.py:SimplicialComplex.triangles_to_B2"]}
{"id": "C05", "title": "Building with ascending edges always yields a valid chain complex", "statement": "If every edge (u, v) of an SCBuilder satisfies 0 <= u < v < len(nodes), then to_simplicial_complex(condition='all') never raises and the result satisfies B1 @ B2 == 0.", "quantifier": "all node counts and all ascending edge lists", "why_tests_cant": "clique enumeration, sorting, lookup and incidence must cooperate for every graph", "anchors": ["pytspl/simplicial_complex/scbuilder.py:SCBuilder.to_simplicial_complex", "pytspl/simplicial_complex/scbuilder.py:SCBuilder.triangles", "pytspl/simplicial_complex/simplicial_complex.py:SimplicialComplex"]}
{"id": "C06", "title": "shape, simplices and max_dim agree", "statement": "shape is (len(nodes), len(edges), len(triangles)); simplices lists nodes as 1-tuples, then edges, then triangles, in order; max_dim is 2 if there is a triangle, else 1 if there is an edge, else 0 if there is a node, and raises ValueError on the empty complex.", "quantifier": "all complexes", "why_tests_cant": "tests check one complex only", "anchors": ["pytspl/simplicial_complex/simplicial_complex.py:SimplicialComplex.shape", "pytspl/simplicial_complex/simplicial_complex.py:SimplicialComplex.simplices", "pytspl/simplicial_complex/simplicial_complex.py:SimplicialComplex.max_dim"]}
{"id": "C07", "title": "get_faces returns exactly the codimension-one faces", "statement": "For a simplex with n >= 2 pairwise distinct vertices in any order, get_faces returns exactly the n sorted tuples obtained by dropping one vertex, each once, in increasing lexicographic order; a one-vertex simplex has no faces.", "quantifier": "all simplices of every size and vertex order", "why_tests_cant": "test covers one edge", "anchors": ["pytspl/simplicial_complex/simplicial_complex.py:SimplicialComplex.get_faces"]}
{"id": "C08", "title": "adjacency_matrix is the graph's adjacency", "statement": "For a complex without self-loop edges, adjacency_matrix() is symmetric with entries 0/1 and zero diagonal, and entry (i, j) is 1 iff some edge joins i and j in either orientation; with a self-loop edge it raises IndexError.", "quantifier": "all complexes", "why_tests_cant": "the test checks only the shape", "anchors": ["pytspl/simplicial_complex/simplicial_complex.py:SimplicialComplex.adjacency_matrix"]}
{"id": "C09", "title": "Graph Laplacian is degree minus adjacency", "statement": "On a simple graph laplacian_matrix() has the node degrees on its diagonal and -1 exactly at adjacent pairs; every row sums to zero.", "quantifier": "all complexes on simple graphs", "why_tests_cant": "tests check row sums on one graph", "anchors": ["pytspl/simplicial_complex/simplicial_complex.py:SimplicialComplex.laplacian_matrix", "pytspl/simplicial_complex/simplicial_complex.py:SimplicialComplex.adjacency_matrix"]}
{"id": "C10", "title": "Laplacian kernel is the locally constant node signals", "statement": "L0 @ x == 0 iff x takes the same value at both endpoints of every edge; in general x.T @ L0 @ x equals the sum over edges (u,v) of (x_v - x_u)^2.", "quantifier": "all loop-free complexes and all real node signals", "why_tests_cant": "a statement about every signal", "anchors": ["pytspl/simplicial_complex/simplicial_complex.py:SimplicialComplex.laplacian_matrix"]}
{"id": "C11", "title": "Hodge Laplacians are symmetric positive semidefinite and additive", "statement": "hodge_laplacian_matrix(1) == lower_laplacian_matrix(1) + upper_laplacian_matrix(1); hodge_laplacian_matrix(0), lower_laplacian_matrix(1), lower_laplacian_matrix(2), upper_laplacian_matrix(0/1) are symmetric with non-negative quadratic form.", "quantifier": "all complexes, all signals", "why_tests_cant": "positive semidefiniteness quantifies over all vectors", "anchors": ["pytspl/simplicial_complex/simplicial_complex.py:SimplicialComplex.hodge_laplacian_matrix", "pytspl/simplicial_complex/simplicial_complex.py:SimplicialComplex.lower_laplacian_matrix", "pytspl/simplicial_complex/simplicial_complex.py:SimplicialComplex.upper_laplacian_matrix"]}
{"id": "C12", "title": "Lower and upper Laplacians annihilate each other", "statement": "When edges are stored consistently with the triangles, L1l @ L1u == 0 and L1u @ L1l == 0, and a flow has L1 f == 0 iff both its divergence and its curl vanish.", "quantifier": "all consistently oriented complexes, all flows", "why_tests_cant": "kernel identity over all flows", "anchors": ["pytspl/simplicial_complex/simplicial_complex.py:SimplicialComplex.hodge_laplacian_matrix", "pytspl/simplicial_complex/simplicial_complex.py:SimplicialComplex.get_divergence", "pytspl/simplicial_complex/simplicial_complex.py:SimplicialComplex.get_curl"]}
{"id": "C13", "title": "Rank arguments are validated", "statement": "incidence_matrix accepts rank 0 (vector of ones), 1, 2; lower_laplacian_matrix accepts 1, 2; upper_laplacian_matrix accepts 0, 1; hodge_laplacian_matrix accepts 0, 1 (2 is documented but rejected); every other rank raises ValueError.", "quantifier": "all integer ranks", "why_tests_cant": "all integers cannot be enumerated by tests", "anchors": ["pytspl/simplicial_complex/simplicial_complex.py:SimplicialComplex.incidence_matrix", "pytspl/simplicial_complex/simplicial_complex.py:SimplicialComplex.lower_laplacian_matrix", "pytspl/simplicial_complex/simplicial_complex.py:SimplicialComplex.upper_laplacian_matrix", "pytspl/simplicial_complex/simplicial_complex.py:SimplicialComplex.hodge_laplacian_matrix"]}
{"id": "C14", "title": "k-step shifting equals powers of the Hodge Laplacian", "statement": "apply_k_step_shifting(f, steps=k) equals (L1l^k + L1u^k) f, hence L1^k f on a consistently oriented complex, for every k >= 1. (True for k = 1, 2; the code always applies two steps when steps != 1, so it is false for k >= 3.)", "quantifier": "all complexes, flows and step counts", "why_tests_cant": "tests only run steps 1 and 2", "anchors": ["pytspl/simplicial_complex/simplicial_complex.py:SimplicialComplex.apply_k_step_shifting", "pytspl/simplicial_complex/simplicial_complex.py:SimplicialComplex.apply_lower_shifting", "pytspl/simplicial_complex/simplicial_complex.py:SimplicialComplex.apply_upper_shifting"]}
{"id": "C15", "title": "Divergence is inflow minus outflow and sums to zero", "statement": "get_divergence(f)[i] equals the sum of f over edges ending at node i minus the sum over edges starting at i, and the divergences of all nodes add up to zero.", "quantifier": "all loop-free complexes, all flows", "why_tests_cant": "all flows", "anchors": ["pytspl/simplicial_complex/simplicial_complex.py:SimplicialComplex.get_divergence", "pytspl/decomposition/eigendecomposition.py:get_divergence"]}
{"id": "C16", "title": "Curl is the signed circulation and vanishes on gradients", "statement": "get_curl(f)[t] == f(ab) + f(bc) - f(ac) for triangle t = [a,b,c], whatever the stored orientations; on a consistently oriented complex the curl of every potential difference flow B1.T @ x is zero and the divergence of every circulation B2 @ y is zero.", "quantifier": "all complexes, flows, potentials", "why_tests_cant": "all flows and potentials", "anchors": ["pytspl/simplicial_complex/simplicial_complex.py:SimplicialComplex.get_curl", "pytspl/decomposition/eigendecomposition.py:get_curl"]}
{"id": "C17", "title": "Edge feature accessors", "statement": "get_edge_features(name) maps every edge with features to its value of that feature, in insertion order, and raises KeyError iff some edge lacks it; with no (or empty) name it returns the whole table; edge_feature_names() lists the feature names of the first edge, or [] when there are no features.", "quantifier": "all feature tables and names", "why_tests_cant": "all tables", "anchors": ["pytspl/simplicial_complex/simplicial_complex.py:SimplicialComplex.get_edge_features", "pytspl/simplicial_complex/simplicial_complex.py:SimplicialComplex.edge_feature_names"]}
{"id": "C18", "title": "Hodge components add up to the flow", "statement": "get_component_flow(f, c, round_fig=False) over c in gradient, curl, harmonic sums exactly to f (in exact arithmetic).", "quantifier": "all complexes (any orientation) and flows", "why_tests_cant": "all flows", "anchors": ["pytspl/simplicial_complex/simplicial_complex.py:SimplicialComplex.get_component_flow", "pytspl/decomposition/hodge_decomposition.py:get_harmonic_flow"]}
{"id": "C19", "title": "Hodge components are mutually orthogonal", "statement": "On a consistently oriented complex the gradient, curl and harmonic components of any flow are pairwise orthogonal, and the squared norms add up to the squared norm of the flow.", "quantifier": "all consistently oriented complexes, all flows", "why_tests_cant": "all flows", "anchors": ["pytspl/decomposition/hodge_decomposition.py:get_gradient_flow", "pytspl/decomposition/hodge_decomposition.py:get_curl_flow", "pytspl/decomposition/hodge_decomposition.py:get_harmonic_flow"]}
{"id": "C20", "title": "Each component has the right differential behaviour", "statement": "On a consistently oriented complex: the gradient component has zero curl and the same divergence as f; the curl component has zero divergence and the same curl as f; the harmonic component has zero divergence, zero curl and L1 @ f_h == 0.", "quantifier": "all consistently oriented complexes, all flows", "why_tests_cant": "all flows", "anchors": ["pytspl/decomposition/hodge_decomposition.py:get_gradient_flow", "pytspl/decomposition/hodge_decomposition.py:get_curl_flow", "pytspl/decomposition/hodge_decomposition.py:get_harmonic_flow", "pytspl/simplicial_complex/simplicial_complex.py:SimplicialComplex.get_component_flow"]}
{"id": "C21", "title": "Gradient and curl components are the best approximations", "statement": "The gradient component is a potential difference flow B1.T @ p and no other potential difference flow is closer to f; the curl component is a B2 @ w and no other is closer to f. The answer does not depend on which least-squares solution the solver returns.", "quantifier": "all complexes, flows, and all solvers meeting the least-squares contract", "why_tests_cant": "quantifies over all competitors and all solvers", "anchors": ["pytspl/decomposition/hodge_decomposition.py:get_gradient_flow", "pytspl/decomposition/hodge_decomposition.py:get_curl_flow"]}
{"id": "C22", "title": "Component extraction is linear and idempotent", "statement": "get_component_flow(a f + b g, c) = a get_component_flow(f, c) + b get_component_flow(g, c) without rounding; extracting the gradient (curl) component of a gradient (curl) component returns it unchanged; on a consistently oriented complex extracting one kind from another kind gives zero, and harmonic extraction is idempotent.", "quantifier": "all complexes, flows, scalars", "why_tests_cant": "all flows", "anchors": ["pytspl/decomposition/hodge_decomposition.py:get_gradient_flow", "pytspl/decomposition/hodge_decomposition.py:get_curl_flow", "pytspl/decomposition/hodge_decomposition.py:get_harmonic_flow"]}
{"id": "C23", "title": "The Hodge decomposition is unique", "statement": "On a consistently oriented complex, if f = g + c + h with g in the image of B1.T, c in the image of B2 and h with zero divergence and curl, then g, c, h are exactly the three flows returned by get_component_flow.", "quantifier": "all consistently oriented complexes, all decompositions", "why_tests_cant": "all decompositions", "anchors": ["pytspl/simplicial_complex/simplicial_complex.py:SimplicialComplex.get_component_flow"]}
{"id": "C24", "title": "Rounding error of components is bounded", "statement": "With round_fig=True every returned entry is a multiple of 10^-d within half a unit 10^-d/2 of the unrounded entry, rounding again changes nothing, and the three rounded components add up to the flow within 1.5 * 10^-d per edge (equality can fail).", "quantifier": "all flows, all non-negative digit counts d", "why_tests_cant": "all values", "anchors": ["pytspl/decomposition/hodge_decomposition.py:get_gradient_flow", "pytspl/decomposition/hodge_decomposition.py:get_curl_flow", "pytspl/decomposition/hodge_decomposition.py:get_harmonic_flow"]}
{"id": "C25", "title": "Unknown components are rejected", "statement": "get_component_flow and get_component_eigenpair raise ValueError for every component string other than 'gradient', 'curl', 'harmonic', and dispatch each of these to the matching result.", "quantifier": "all strings", "why_tests_cant": "all strings", "anchors": ["pytspl/simplicial_complex/simplicial_complex.py:SimplicialComplex.get_component_flow", "pytspl/simplicial_complex/simplicial_complex.py:SimplicialComplex.get_component_eigenpair"]}
{"id": "C26", "title": "Eigendecomposition reconstructs the Laplacian", "statement": "get_eigendecomposition on a Laplacian of a complex with at least one edge returns orthonormal eigenvectors and ascending eigenvalues; entries of size below machine epsilon are replaced by 0, all returned eigenvalues are non-negative, and U diag(w) U.T differs from L by less than eps in every eigendirection. It raises AssertionError for sparse input and ValueError for the empty matrix.", "quantifier": "all complexes, all eigensolvers meeting the eigh contract", "why_tests_cant": "all matrices and all valid eigenbases", "anchors": ["pytspl/decomposition/eigendecomposition.py:get_eigendecomposition"]}
{"id": "C27", "title": "Component eigenspaces fill the edge space", "statement": "On a consistently oriented complex whose Hodge Laplacian has no eigenvalue in (0, tol], tol > 0 (and tol >= machine eps), the numbers of harmonic, curl and gradient eigenvectors returned add up to the number of edges, and equal E - rank B1 - rank B2, rank B2 and rank B1.", "quantifier": "all such complexes, tolerances and eigensolvers", "why_tests_cant": "tests check one complex", "anchors": ["pytspl/simplicial_complex/simplicial_complex.py:SimplicialComplex.get_component_eigenpair", "pytspl/decomposition/eigendecomposition.py:get_harmonic_eigenpair", "pytspl/decomposition/eigendecomposition.py:get_curl_eigenpair", "pytspl/decomposition/eigendecomposition.py:get_gradient_eigenpair"]}
{"id": "C28", "title": "Component eigenvectors are orthonormal, mutually orthogonal and of the right kind", "statement": "Under the same hypotheses each returned eigenvector block is orthonormal, blocks of different kinds are orthogonal, gradient eigenvectors are curl-free eigenvectors of L1, curl eigenvectors are divergence-free eigenvectors of L1, harmonic eigenvectors have zero divergence and curl.", "quantifier": "all such complexes, tolerances and eigensolvers", "why_tests_cant": "degenerate eigenspaces make the solver's choice arbitrary; every choice must work", "anchors": ["pytspl/decomposition/eigendecomposition.py:get_harmonic_eigenpair", "pytspl/decomposition/eigendecomposition.py:get_curl_eigenpair", "pytspl/decomposition/eigendecomposition.py:get_gradient_eigenpair"]}
{"id": "C29", "title": "Component eigenvalues are the Hodge spectrum", "statement": "Under the same hypotheses the concatenation of the harmonic, curl and gradient eigenvalues is, as a multiset, exactly the spectrum of the Hodge Laplacian.", "quantifier": "all such complexes and eigensolvers", "why_tests_cant": "all complexes", "anchors": ["pytspl/simplicial_complex/simplicial_complex.py:SimplicialComplex.get_component_eigenpair", "pytspl/filters/base_filter.py:BaseFilter.get_component_coefficients"]}
{"id": "C30", "title": "Simplicial embeddings preserve the flow", "statement": "Under the same hypotheses with tol = 1e-3, the embeddings returned by get_simplicial_embeddings satisfy |f_h|^2+|f_c|^2+|f_g|^2 = |f|^2, and U_h f_h, U_c f_c, U_g f_g are exactly the harmonic, curl and gradient components of f.", "quantifier": "all such complexes, all flows, all eigensolvers", "why_tests_cant": "all flows", "anchors": ["pytspl/simplicial_complex/simplicial_complex.py:SimplicialComplex.get_simplicial_embeddings", "pytspl/simplicial_complex/simplicial_complex.py:SimplicialComplex.get_component_flow"]}
{"id": "C31", "title": "The default tolerance identifies the harmonic space", "statement": "get_component_eigenpair('harmonic') with the default tolerance returns exactly the harmonic space for every complex. (False: on a path with 2000 or more edges, which has no harmonic flow, it returns at least one harmonic eigenvector. Proved when no eigenvalue lies in (0, 1e-3].)", "quantifier": "all complexes", "why_tests_cant": "needs a complex far larger than the tests use", "anchors": ["pytspl/simplicial_complex/simplicial_complex.py:SimplicialComplex.get_component_eigenpair", "pytspl/decomposition/eigendecomposition.py:get_harmonic_eigenpair"]}
{"id": "C32", "title": "Total variance", "statement": "SimplicialComplex.get_total_variance() returns the Laplacian quadratic forms of the eigenvectors. (False: the method passes a sparse matrix to a function that asserts a dense one, so it always raises AssertionError; the free function on a dense Laplacian returns exactly the eigenvalues.)", "quantifier": "all complexes", "why_tests_cant": "no test calls it", "anchors": ["pytspl/simplicial_complex/simplicial_complex.py:SimplicialComplex.get_total_variance", "pytspl/decomposition/eigendecomposition.py:get_total_variance"]}
{"id": "C33", "title": "triangles() lists every triangle of the graph exactly once", "statement": "SCBuilder.triangles() returns exactly the increasing triples [a,b,c] whose three pairs are joined by an edge in either orientation, each exactly once, whatever the order, orientation, repetition or self-loops of the edge list.", "quantifier": "all edge lists", "why_tests_cant": "the clique search must be right for every graph", "anchors": ["pytspl/simplicial_complex/scbuilder.py:SCBuilder.triangles"]}
{"id": "C34", "title": "Triangles do not depend on edge order or orientation", "statement": "Two builders whose edge lists describe the same undirected graph return the same triangles up to order.", "quantifier": "all pairs of edge lists", "why_tests_cant": "all pairs", "anchors": ["pytspl/simplicial_complex/scbuilder.py:SCBuilder.triangles"]}
{"id": "C35", "title": "Distance-filtered triangles", "statement": "When all edge features are present for ascending pairs and distances are non-zero, triangles_dist_based(col, eps) returns exactly the triangles whose three distances are below eps, in the order of triangles(). (In general triangles with a zero distance are dropped, and KeyError is raised when a triangle's edge is stored descending or lacks the column; a triangle with a distance missing from the file is dropped silently; texts count as present unless empty and raise TypeError when compared; the first triangle that cannot be judged decides.)", "quantifier": "all builders, columns and thresholds", "why_tests_cant": "all feature tables", "anchors": ["pytspl/simplicial_complex/scbuilder.py:SCBuilder.triangles_dist_based"]}
{"id": "C36", "title": "to_simplicial_complex dispatch", "statement": "Explicit triangles are used as given; otherwise condition 'all' uses triangles() and any other condition uses triangles_dist_based; nodes, edges and features are passed through unchanged. With in-range edges, condition 'all' never raises.", "quantifier": "all builders and conditions", "why_tests_cant": "all inputs", "anchors": ["pytspl/simplicial_complex/scbuilder.py:SCBuilder.to_simplicial_complex"]}
{"id": "C37", "title": "Edge extraction merges directions and is sorted", "statement": "Reading a table of directed links yields edges that are strictly increasing lexicographically, contain for every row exactly one of (s,t), (t,s) - the orientation of the first row seen - and nothing else; nodes are 0..max. Ids are numbers, truncated to integers, or texts of integers. With start_index_zero=False every id is lowered by one.", "quantifier": "all tables", "why_tests_cant": "all row orders and duplicates", "anchors": ["pytspl/io/network_reader.py:_extract_nodes_edges", "pytspl/io/network_reader.py:read_csv", "pytspl/io/network_reader.py:read_tntp"]}
{"id": "C38", "title": "Reading an empty or malformed table fails cleanly", "statement": "An empty table raises ValueError, a missing source/destination column raises KeyError; read_csv without feature_cols raises TypeError (the documented default None is not accepted).", "quantifier": "all tables", "why_tests_cant": "all malformed inputs", "anchors": ["pytspl/io/network_reader.py:_extract_nodes_edges", "pytspl/io/network_reader.py:read_csv"]}
{"id": "C39", "title": "Each edge keeps the features of its own row", "statement": "After read_csv/read_tntp every edge's features are those of the row that introduced it. (False: features are taken by position after sorting and de-duplication. Proved when the rows are already strictly sorted and free of duplicates.)", "quantifier": "all tables", "why_tests_cant": "shipped datasets are affected; tests never compare features", "anchors": ["pytspl/io/network_reader.py:read_csv", "pytspl/io/network_reader.py:read_tntp"]}
{"id": "C40", "title": "Incidence matrices round-trip", "statement": "Writing incidence_matrix(1) and incidence_matrix(2).T and reading them with read_B1_B2 gives back the same nodes, edges and triangles, provided edges are strictly sorted and ascending, the last node has an edge, triangles are increasing and there is at least one (without triangles the second file is empty and reading raises ValueError). (For unsorted edge columns triangles are attached to wrong edges: shown by a counterexample.)", "quantifier": "all such complexes", "why_tests_cant": "round trip over all complexes", "anchors": ["pytspl/io/network_reader.py:read_B1_B2", "pytspl/io/network_reader.py:read_B2"]}
{"id": "C41", "title": "Coordinates are keyed by node id", "statement": "read_coordinates returns, for every node id in the file (lowered by one if start_index_zero is False), the coordinates of the last row with that id, and nothing else; in a column of numbers every row without an id gets an entry of its own; a missing file gives None.", "quantifier": "all tables", "why_tests_cant": "all tables", "anchors": ["pytspl/io/network_reader.py:read_coordinates"]}
{"id": "C42", "title": "Transport flow is the net volume per edge", "statement": "For a strictly sorted edge list, load_flow_transportation returns for every edge (s,t) the volume of link s->t minus the volume of t->s (0 if absent), in edge order, and raises IndexError iff some edge has no forward link in a non-empty flow table of numbers. With texts or missing entries among the volumes the edges are judged in order: an edge without forward link gives IndexError, with a text among its two volumes TypeError, and an edge with a missing volume gets the flow NaN, also when the dataset is loaded as a whole. (For unsorted edge lists edges can be silently skipped, because the visited check mixes 1-based and 0-based ids: counterexample.)", "quantifier": "all flow tables and sorted edge lists", "why_tests_cant": "depends on the whole edge history", "anchors": ["pytspl/io/data_loaders/transportation_loader.py:load_flow_transportation"]}
{"id": "C43", "title": "load_dataset rejects unknown names and validates coordinates", "statement": "load_dataset raises ValueError for every name not in list_datasets(); for the four named datasets it calls their loader and otherwise the transportation loader; it returns only if the number of nodes equals the number of coordinates.", "quantifier": "all names and directory contents", "why_tests_cant": "all names", "anchors": ["pytspl/io/dataset_loader.py:load_dataset", "pytspl/io/dataset_loader.py:list_datasets", "pytspl/io/data_loaders/transportation_loader.py:list_transportation_datasets"]}
{"id": "C44", "title": "Positional flows are attached to edges in order", "statement": "The loaders' flow dictionaries contain every edge of the complex exactly with the flow value at the edge's position (edges distinct), and fail with IndexError if there are fewer values than edges.", "quantifier": "all edge lists and flow arrays", "why_tests_cant": "all inputs", "anchors": ["pytspl/io/data_loaders/paper_loader.py:load_paper_data", "pytspl/io/data_loaders/forex_loader.py:load_forex_data", "pytspl/plot/plot.py:SCPlot.create_edge_flow"]}
{"id": "C45", "title": "Random complexes are well formed", "statement": "generate_random_simplicial_complex never raises whatever graph and weights are drawn; its triangles are exactly the triangles of the graph whose three weights are non-zero and below the threshold; B1 @ B2 == 0.", "quantifier": "all drawn graphs and weights", "why_tests_cant": "all random outcomes", "anchors": ["pytspl/io/sc_generator.py:generate_random_simplicial_complex"]}
{"id": "C46", "title": "P-matrix choice", "statement": "get_p_matrix returns the Hodge, lower or upper Laplacian for 'L1', 'L1L', 'L1U' and raises ValueError for every other string.", "quantifier": "all strings", "why_tests_cant": "all strings", "anchors": ["pytspl/filters/base_filter.py:BaseFilter.get_p_matrix"]}
{"id": "C47", "title": "NRMSE is a scale-free distance", "statement": "For a non-zero reference, calculate_error_NRMSE is non-negative, zero iff the estimate equals the reference, invariant under common non-zero scaling, and at most NRMSE(g) + |f-g|/|ref|; for a zero reference the result is not finite.", "quantifier": "all vectors", "why_tests_cant": "all vectors", "anchors": ["pytspl/filters/base_filter.py:BaseFilter.calculate_error_NRMSE"]}
{"id": "C48", "title": "Logistic response", "statement": "For steep > 0 the logistic response is strictly increasing with values in (0,1), equals 1/2 at the cut-off and satisfies g(c+d) + g(c-d) = 1.", "quantifier": "all cut-offs, steepness, frequencies", "why_tests_cant": "all reals", "anchors": ["pytspl/filters/base_filter.py:BaseFilter.logistic_function"]}
{"id": "C49", "title": "Component coefficient masks partition the spectrum", "statement": "On a consistently oriented complex with no Hodge eigenvalue in (0, 1e-3], get_component_coefficients returns a 0/1 vector of one entry per edge for each component; the three masks add up to the all-ones vector and each has as many ones as the component has dimensions; the harmonic mask marks exactly the zero eigenvalues; position i of the gradient (curl) mask is 1 only if the i-th Hodge eigenvalue is an eigenvalue of the lower (upper) Laplacian.", "quantifier": "all such complexes, all sorting tie-breaks", "why_tests_cant": "ties make the sort order arbitrary", "anchors": ["pytspl/filters/base_filter.py:BaseFilter.get_component_coefficients"]}
{"id": "C50", "title": "Power iteration stays finite and exact where it should", "statement": "power_iteration returns the normalised iterate shifted by machine epsilon when no iterate vanishes, and non-finite values as soon as the all-ones vector is annihilated by the matrix (e.g. the lower Laplacian of a directed cycle, the upper Laplacian of a triangle-free complex). If the all-ones vector is an eigenvector with positive eigenvalue, every iterate is the normalised ones vector.", "quantifier": "all symmetric PSD matrices and iteration counts", "why_tests_cant": "all matrices", "anchors": ["pytspl/filters/base_filter.py:BaseFilter.power_iteration", "pytspl/filters/chebyshev_filter_design.py:ChebyshevFilterDesign.get_alpha"]}
{"id": "C51", "title": "Designed filters are polynomials in the Laplacian", "statement": "Every filter stored by LSFilterDesign and GridBasedFilterDesign is a polynomial of degree < L in the chosen Laplacian; therefore it commutes with it, f_estimated == filter @ f, and the l-th stored frequency response is the degree-l polynomial evaluated at the Laplacian's eigenvalues.", "quantifier": "all complexes, flows, sizes L, solvers", "why_tests_cant": "all inputs", "anchors": ["pytspl/filters/ls_filter_design.py:LSFilterDesign._apply_filter", "pytspl/filters/grid_based_filter_design.py:GridBasedFilterDesign._apply_filter"]}
{"id": "C52", "title": "Least-squares design error never increases with filter size", "statement": "The residual of the coefficient fit at filter size l+1 is at most the residual at size l, and the fit at size l is optimal among all polynomials of degree <= l.", "quantifier": "all spectra, targets, sizes", "why_tests_cant": "all inputs", "anchors": ["pytspl/filters/ls_filter_design.py:LSFilterDesign._apply_filter"]}
{"id": "C53", "title": "Type-two LS filter extracts the component exactly", "statement": "If the lower (upper) Laplacian has eigenvalue 0 and no eigenvalue in (0, tol), then subcomponent_extraction_type_two with component gradient (curl) and L at least the number of distinct eigenvalues returns exactly the gradient (curl) component of every flow, with error 0 when that component is non-zero. (Without a zero eigenvalue - e.g. on any tree for the gradient - it zeroes the lowest eigenvalue's part: counterexample.)", "quantifier": "all complexes, flows, L", "why_tests_cant": "exactness for every complex", "anchors": ["pytspl/filters/ls_filter_design.py:LSFilterDesign.subcomponent_extraction_type_two"]}
{"id": "C54", "title": "Type-one LS filter extracts the harmonic component exactly", "statement": "On a consistently oriented complex with no Hodge eigenvalue in (0, 1e-3], subcomponent_extraction_type_one('harmonic') with L at least the number of distinct Hodge eigenvalues returns exactly the harmonic component; for gradient and curl the same holds if the lower and upper Laplacian share no non-zero eigenvalue.", "quantifier": "all such complexes, flows, L", "why_tests_cant": "exactness for every complex", "anchors": ["pytspl/filters/ls_filter_design.py:LSFilterDesign.subcomponent_extraction_type_one", "pytspl/filters/base_filter.py:BaseFilter.get_component_coefficients"]}
{"id": "C55", "title": "general_filter components add up to the flow", "statement": "general_filter(f, L1, L2) of both designs returns (h, c, g) with h + c + g == f; a size <= 0 gives a zero component and skips that design.", "quantifier": "all flows and sizes", "why_tests_cant": "all inputs", "anchors": ["pytspl/filters/ls_filter_design.py:LSFilterDesign.general_filter", "pytspl/filters/grid_based_filter_design.py:GridBasedFilterDesign.general_filter"]}
{"id": "C56", "title": "LS general_filter keeps both designs in its history", "statement": "After LSFilterDesign.general_filter with positive sizes, history['L1'] is the gradient design and history['L2'] the curl design, each with f_estimated equal to the returned component, whatever calls preceded it.", "quantifier": "all prior histories and inputs", "why_tests_cant": "depends on object identity over call sequences", "anchors": ["pytspl/filters/ls_filter_design.py:LSFilterDesign.general_filter", "pytspl/filters/base_filter.py:BaseFilter._reset_history"]}
{"id": "C57", "title": "Grid general_filter keeps both designs in its history", "statement": "After GridBasedFilterDesign.general_filter with positive sizes, history['L1'] is the gradient design and history['L2'] the curl design. (False: both keys refer to the same dictionary, which holds the curl design; proved when only one of the sizes is positive.)", "quantifier": "all prior histories and inputs", "why_tests_cant": "aliasing of a mutable dictionary", "anchors": ["pytspl/filters/grid_based_filter_design.py:GridBasedFilterDesign.general_filter", "pytspl/filters/base_filter.py:BaseFilter.set_history"]}
{"id": "C58", "title": "Filter history always describes the last successful design", "statement": "After any sequence of LSFilterDesign extraction calls (valid or failing), the history either has all entries None or holds a filter and f_estimated with f_estimated == filter @ f for the flow of the last call, which succeeded; an invalid component or a non-positive size raises and leaves the history reset.", "quantifier": "all call sequences", "why_tests_cant": "all histories", "anchors": ["pytspl/filters/ls_filter_design.py:LSFilterDesign", "pytspl/filters/base_filter.py:BaseFilter.set_history", "pytspl/filters/base_filter.py:BaseFilter._reset_history"]}
{"id": "C59", "title": "Edge-flow denoising is a well-defined contraction", "statement": "For mu >= 0 EdgeFlowDenoising.denoise never fails on the inverse; the filter is symmetric, satisfies (I + mu P) H = I, never increases the norm of a flow and leaves flows in the kernel of P unchanged.", "quantifier": "all complexes, P choices, flows, mu >= 0", "why_tests_cant": "all inputs", "anchors": ["pytspl/filters/edge_flow_denoising.py:EdgeFlowDenoising.denoise"]}
{"id": "C60", "title": "Edge-flow denoising solves the regularised problem", "statement": "For mu >= 0 the estimate is the unique minimiser of |x - f|^2 + mu * x.T P x. Without mu_vals, mu is 0.5.", "quantifier": "all flows and competitors", "why_tests_cant": "all competitors", "anchors": ["pytspl/filters/edge_flow_denoising.py:EdgeFlowDenoising.denoise"]}
{"id": "C61", "title": "Edge-flow denoising frequency response", "statement": "The stored frequency response for mu at eigenvalue lambda_k is 1/(1 + mu*lambda_k), in (0,1], non-increasing in k and in mu; the stored filter and estimate are those of the last mu; an empty mu list fails with an unbound local error and leaves the history untouched.", "quantifier": "all complexes, mu lists, eigensolvers", "why_tests_cant": "all inputs", "anchors": ["pytspl/filters/edge_flow_denoising.py:EdgeFlowDenoising.denoise"]}
{"id": "C62", "title": "Chebyshev filter is the Chebyshev series of the shifted Laplacian", "statement": "The order-K approximation equals sum_{k<K} c_k T_k((P - alpha I)/alpha) with T_k the Chebyshev polynomials, so its response at an eigenvalue lambda is sum c_k T_k((lambda-alpha)/alpha).", "quantifier": "all matrices, coefficients, orders, alpha != 0", "why_tests_cant": "all orders", "anchors": ["pytspl/filters/chebyshev_filter_design.py:ChebyshevFilterDesign._chebyshev_filter_approximate"]}
{"id": "C63", "title": "Chebyshev filter history is indexed by order", "statement": "After apply with size L >= 1 the k-th stored filter is the approximation with k+1 coefficients. (False for L >= 2: the k-th entry uses min(k+2, L) coefficients because of an off-by-one slice; exact indexing proved as it is.)", "quantifier": "all sizes L and k", "why_tests_cant": "all sizes", "anchors": ["pytspl/filters/chebyshev_filter_design.py:ChebyshevFilterDesign.get_chebyshev_frequency_approx"]}
{"id": "C64", "title": "Chebyshev coefficient shortage", "statement": "If fewer coefficients than the requested order are available the approximation raises ValueError, except that a single coefficient broadcasts and yields c_0 I, and that no coefficient with order 1 yields the zero matrix; apply stores c_0 I for every size when the series has one coefficient.", "quantifier": "all coefficient lists and orders", "why_tests_cant": "all lengths", "anchors": ["pytspl/filters/chebyshev_filter_design.py:ChebyshevFilterDesign._chebyshev_filter_approximate", "pytspl/filters/chebyshev_filter_design.py:ChebyshevFilterDesign.apply"]}
{"id": "C65", "title": "Ideal filter is the projector on the component", "statement": "On a consistently oriented complex with no Hodge eigenvalue in (0,1e-3], get_ideal_frequency(get_component_coefficients('harmonic')) applied to f equals the harmonic component of f, and the three ideal filters add up to the identity; for gradient/curl the same holds when lower and upper spectra share no non-zero eigenvalue.", "quantifier": "all such complexes, flows, eigensolvers", "why_tests_cant": "all flows", "anchors": ["pytspl/filters/chebyshev_filter_design.py:ChebyshevFilterDesign.get_ideal_frequency", "pytspl/filters/base_filter.py:BaseFilter.get_component_coefficients"]}
{"id": "C66", "title": "Trend-filter shift operators vanish exactly on divergence-free (curl-free) flows", "statement": "For every order k >= 0, get_shift_operator('divergence', k) @ f == 0 iff f has zero divergence, and get_shift_operator('curl', k) @ f == 0 iff f has zero curl; orders alternate B1 L1l^(k/2) and L1l^((k+1)/2); negative orders raise ValueError.", "quantifier": "all complexes, orders, flows", "why_tests_cant": "all orders", "anchors": ["pytspl/filters/simplicial_trend_filter.py:SimplicialTrendFilter.get_shift_operator"]}
{"id": "C67", "title": "l2 trend filter regularises the chosen component", "statement": "denoising_l2_regularizer(component='curl') regularises the curl. (False: it uses the lower Laplacian for either component; proved: every stored realisation is (I + mu L1l)^-1 applied to the noisy flow, and its divergence norm is at most that of the noisy flow for mu >= 0.)", "quantifier": "all flows, noise draws, mu", "why_tests_cant": "all noise draws", "anchors": ["pytspl/filters/simplicial_trend_filter.py:SimplicialTrendFilter.denoising_l2_regularizer"]}
{"id": "C68", "title": "l1 trend filter beats every competitor", "statement": "Each stored realisation x of denoising_l1_regularizer minimises |f_noisy - x|_2 + mu |S x|_1, in particular mu |S x|_1 <= mu |S f_noisy|_1 and divergence-free (curl-free) noisy flows are returned unchanged.", "quantifier": "all flows, noise draws, orders, mu >= 0, solvers meeting the contract", "why_tests_cant": "all competitors", "anchors": ["pytspl/filters/simplicial_trend_filter.py:SimplicialTrendFilter._solver", "pytspl/filters/simplicial_trend_filter.py:SimplicialTrendFilter.denoising_l1_regularizer"]}
{"id": "C69", "title": "Interpolation keeps the observed flow", "statement": "Every stored realisation of interpolation_l1_regularizer equals the flow on each sampled edge; the number of distinct edges sampled is the floating point product of the number of edges and the ratio, rounded down, hence the exact product rounded down or up; r = 1 returns the flow itself.", "quantifier": "all flows, ratios in [0,1], samples, solvers, complexes with at most 2^53 edges", "why_tests_cant": "all samples", "anchors": ["pytspl/filters/simplicial_trend_filter.py:SimplicialTrendFilter.interpolation_l1_regularizer"]}
{"id": "C70", "title": "Unknown trend-filter components are rejected before any work", "statement": "denoising_l1/l2_regularizer and interpolation_l1_regularizer raise ValueError for every component other than 'divergence' and 'curl' and leave the history unchanged; get_shift_operator itself treats every non-'divergence' string as 'curl'.", "quantifier": "all strings", "why_tests_cant": "all strings", "anchors": ["pytspl/filters/simplicial_trend_filter.py:SimplicialTrendFilter"]}
{"id": "C71", "title": "Noise power follows the SNR", "statement": "get_power_noise returns snr = 10^(dB/10) and power |f|/(snr*E); it is strictly decreasing in dB for a non-zero flow and +10 dB divides the power by 10.", "quantifier": "all flows and dB values", "why_tests_cant": "all reals", "anchors": ["pytspl/filters/simplicial_trend_filter.py:SimplicialTrendFilter.get_power_noise"]}
{"id": "C72", "title": "Edge kernels are valid covariances", "statement": "For every kernel type, every parameter setting and every list of edges, the covariance matrix is symmetric and positive semidefinite when built from get_eigenpairs of a complex (tolerance >= machine eps). For distinct edges of a consistently oriented complex it is even positive definite, whatever the spectrum, so it can be inverted without noise.", "quantifier": "all complexes, raw parameters, edge lists", "why_tests_cant": "PSD over all index lists", "anchors": ["pytspl/hogde_gp/forex/matern.py:MaternKernelForex.forward", "pytspl/hogde_gp/forex/diffusion.py:DiffusionKernelForex.forward", "pytspl/hogde_gp/forex/laplacian.py:LaplacianKernelForex.forward", "pytspl/hogde_gp/forex/diffusion_non_hc.py:DiffusionNonHCKernelForex.forward", "pytspl/hogde_gp/forex/matern_non_hc.py:MaternNonHCKernelForex.forward"]}
{"id": "C73", "title": "Kernel spectral action", "statement": "The full kernel matrix multiplies every gradient (curl, harmonic) eigenvector by the documented spectral density at its eigenvalue times the component weight.", "quantifier": "all complexes, parameters", "why_tests_cant": "all eigenvectors", "anchors": ["pytspl/hogde_gp/forex/matern.py", "pytspl/hogde_gp/forex/diffusion.py:DiffusionKernelForex", "pytspl/hogde_gp/forex/laplacian.py:LaplacianKernelForex", "pytspl/hogde_gp/forex/diffusion_non_hc.py:DiffusionNonHCKernelForex", "pytspl/hogde_gp/forex/matern_non_hc.py:MaternNonHCKernelForex", "pytspl/hogde_gp/hodge_gp_trainer.py:HodgeGPTrainer.get_eigenpairs"]}
{"id": "C74", "title": "Kernel diag agrees with the full matrix and slices", "statement": "forward(x1, x2, diag=True) is the diagonal of forward(x1, x2); the covariance between two edge lists is the corresponding slice of the full matrix; out-of-range edges raise IndexError; omitting x2 raises AttributeError although the signature allows it.", "quantifier": "all edge lists", "why_tests_cant": "all lists", "anchors": ["pytspl/hogde_gp/forex/matern.py:MaternKernelForex.forward", "pytspl/hogde_gp/forex/diffusion.py:DiffusionKernelForex.forward"]}
{"id": "C75", "title": "Kernel parameter accessors round-trip and stay positive", "statement": "Every kernel parameter read back is positive for every raw value; setting a parameter to v > 0 makes it read v and leaves all other parameters unchanged.", "quantifier": "all parameter values and assignment sequences", "why_tests_cant": "all reals", "anchors": ["pytspl/hogde_gp/forex/matern.py:MaternKernelForex", "pytspl/hogde_gp/forex/diffusion.py:DiffusionKernelForex", "pytspl/hogde_gp/forex/laplacian.py:LaplacianKernelForex"]}
{"id": "C76", "title": "Kernel serializer decision table", "statement": "serialize accepts exactly the advertised kernel names with data name 'forex'; unknown kernel names or data names raise ValueError. (False for 'laplacian_non_hc': it is advertised but raises KeyError.)", "quantifier": "all strings", "why_tests_cant": "all strings", "anchors": ["pytspl/hogde_gp/kernel_serializer.py:KernelSerializer._get_serializer", "pytspl/hogde_gp/kernels.py:Kernels"]}
{"id": "C77", "title": "Train/test split is an aligned partition", "statement": "train_test_split puts every edge index in exactly one of the training and test sets, both of which have members, and pairs each index with its own target. A float ratio in (0,1) gives floor(ratio*E) training items, where the product is the floating point one, so the exact product rounded down or up (with the default 0.8 always 4E/5 rounded down); an int k gives k training items, so train_ratio=1 trains on one edge. It fails with ValueError, leaving the trainer as it was, when the target length differs, the seed is invalid, the ratio is not in (0,1) or leaves no training item, or the int is not between 1 and E-1.", "quantifier": "all ratios, numbers, seeds, permutations, targets, complexes with at most 2^53 edges", "why_tests_cant": "all seeds", "anchors": ["pytspl/hogde_gp/hodge_gp_trainer.py:HodgeGPTrainer.train_test_split"]}
{"id": "C78", "title": "Normalisation is an invertible affine map fitted on training data", "statement": "With normalisation the training targets have mean 0 and unbiased standard deviation 1 (when the std is non-zero), the same map is applied to test and all targets, and it is injective; a constant or single training target gives non-finite values.", "quantifier": "all targets and splits", "why_tests_cant": "all reals", "anchors": ["pytspl/hogde_gp/hodge_gp_trainer.py:HodgeGPTrainer.normalize_data"]}
{"id": "C79", "title": "Matern covariance export matches the kernel", "statement": "build_matern_kernel returns outputscale times the trained Matern kernel's full covariance matrix (same parameters, same eigenpairs); its diagonal is returned as variance, collapsed to 0.0 when all variances are close.", "quantifier": "all complexes and parameters", "why_tests_cant": "all parameters", "anchors": ["pytspl/hogde_gp/hodge_gp_trainer.py:HodgeGPTrainer.build_matern_kernel", "pytspl/hogde_gp/forex/matern.py:MaternKernelForex"]}
{"id": "C80", "title": "Parameters before training", "statement": "get_model_parameters and build_matern_kernel before train raise ValueError. (False: the attribute is never initialised so AttributeError is raised; proved as it is.)", "quantifier": "all trainers", "why_tests_cant": "call-order property", "anchors": ["pytspl/hogde_gp/hodge_gp_trainer.py:HodgeGPTrainer.get_model_parameters"]}
{"id": "C81", "title": "Grid sampling", "statement": "The sampled frequencies start at 0, end at the estimated largest eigenvalue, are evenly spaced and as many as requested, and the denoising target at each is 1/(1+mu*lambda).", "quantifier": "all sample counts", "why_tests_cant": "all counts", "anchors": ["pytspl/filters/grid_based_filter_design.py:GridBasedFilterDesign._sample_grid_points", "pytspl/filters/grid_based_filter_design.py:GridBasedFilterDesign._compute_sampled_continuous_freq_response"]}
{"id": "C82", "title": "Edge colours follow edges", "statement": "draw_sc_edges with an edge_flow dictionary draws every edge once with its own flow value, whatever order the graph library enumerates the edges in.", "quantifier": "all flow dictionaries", "why_tests_cant": "all orders", "anchors": ["pytspl/plot/plot.py:SCPlot.draw_sc_edges"]}
{"id": "C83", "title": "Edge label placement", "statement": "Edge labels are placed at the edge midpoint moved by a fixed offset determined only by the slope class; swapping the endpoints does not move the label.", "quantifier": "all coordinates", "why_tests_cant": "all coordinates", "anchors": ["pytspl/plot/plot.py:SCPlot._calculate_edge_label_position"]}
{"id": "C84", "title": "draw_network keyword routing", "statement": "draw_network raises ValueError iff some keyword is not a node, edge or label option; every accepted keyword reaches each drawing routine that has it.", "quantifier": "all keyword dictionaries", "why_tests_cant": "all dictionaries", "anchors": ["pytspl/plot/plot.py:SCPlot.draw_network"]}
{"id": "C85", "title": "Eigenvector grid is large enough", "statement": "draw_eigenvectors lays out n >= 1 plots on a grid of at most 3 columns with rows*cols >= n and no empty row; n = 0 raises ZeroDivisionError.", "quantifier": "all plot counts", "why_tests_cant": "all counts", "anchors": ["pytspl/plot/plot.py:SCPlot.draw_eigenvectors"]}
{"id": "C86", "title": "Axis limits contain all nodes", "statement": "With given coordinates the axis limits contain every node, with 5 percent padding on each side. Without coordinates the nodes get a spring layout, kept for later drawings, and the limits are the square from -1.1 to 1.1, which contains every node.", "quantifier": "all coordinate dictionaries, and plots without one", "why_tests_cant": "all coordinates", "anchors": ["pytspl/plot/plot.py:SCPlot._init_axes"]}
{"id": "C87", "title": "General least-squares filter recovers the Hodge decomposition", "statement": "On a consistently oriented complex whose lower and upper Laplacians have zero eigenvalues and no eigenvalue in (0, tolerance), LSFilterDesign.general_filter with L1 and L2 at least the number of distinct eigenvalues returns exactly the harmonic, curl and gradient components of the flow.", "quantifier": "all complexes, flows, large enough sizes", "why_tests_cant": "all complexes and flows", "anchors": ["pytspl/filters/ls_filter_design.py:LSFilterDesign.general_filter"]}
{"id": "C88", "title": "Saved least-squares histories are not modified", "statement": "A history dictionary the caller saved from an LSFilterDesign object is not modified by any later extraction call on that object; on a GridBasedFilterDesign object every successful extraction overwrites it.", "quantifier": "all histories and call sequences", "why_tests_cant": "aliasing over all sequences of calls", "anchors": ["pytspl/filters/ls_filter_design.py:LSFilterDesign", "pytspl/filters/base_filter.py:BaseFilter._reset_history", "pytspl/filters/grid_based_filter_design.py:GridBasedFilterDesign"]}
{"id": "C89", "title": "Chebyshev filtering needs two edges", "statement": "On a complex with exactly one edge ChebyshevFilterDesign.apply with size at least 1 always raises, whatever the flow, matrix choice and series, and leaves the history unchanged.", "quantifier": "all one-edge complexes, flows, options", "why_tests_cant": "all options", "anchors": ["pytspl/filters/chebyshev_filter_design.py:ChebyshevFilterDesign.apply"]}
{"id": "C90", "title": "Chebyshev history entries belong together", "statement": "After a successful ChebyshevFilterDesign.apply of size L every history list has L entries: the k-th estimate is the k-th filter applied to the flow, the k-th 'frequency response' holds the coefficients of the k-th estimate in the Hodge eigenbasis, the k-th errors compare the k-th estimate with the component and the k-th filter with the ideal filter. The recorded filter error is the worst relative amplification of the difference to the ideal filter: no flow is changed by more than that factor times its length, and some flow attains it.", "quantifier": "all complexes, flows, sizes, options, eigensolvers", "why_tests_cant": "all inputs", "anchors": ["pytspl/filters/chebyshev_filter_design.py:ChebyshevFilterDesign.apply"]}
{"id": "C91", "title": "Correlations are bounded and detect affine copies", "statement": "Every correlation the trend filter stores lies between -1 and 1; it is a number exactly if neither flow is constant, is symmetric, and equals 1 for a non-constant flow against any positive multiple of itself plus a constant.", "quantifier": "all pairs of flows", "why_tests_cant": "all reals", "anchors": ["pytspl/filters/simplicial_trend_filter.py:SimplicialTrendFilter._calculate_correlation"]}
{"id": "C92", "title": "Node positions are chosen once", "statement": "Drawing never changes given coordinates; without coordinates the layout chosen by the first drawing call is kept by all later calls, so successive drawings put every node at the same point.", "quantifier": "all plots, all sequences of drawing calls, all layouts the graph library may choose", "why_tests_cant": "all call sequences and random layouts", "anchors": ["pytspl/plot/plot.py:SCPlot._init_axes", "pytspl/plot/plot.py:SCPlot.draw_network"]}
{"id": "C93", "title": "Hodge decomposition figure", "statement": "draw_hodge_decomposition without component draws three panels G, C, H showing on every edge the gradient, curl and harmonic component of the flow; the values shown add up to the flow (up to rounding). With a component it draws that one; any other name raises ValueError.", "quantifier": "all complexes, flows, rounding settings, solvers", "why_tests_cant": "all flows", "anchors": ["pytspl/plot/plot.py:SCPlot.draw_hodge_decomposition"]}
{"id": "C94", "title": "Drawing stays in the given axes", "statement": "Everything draw_network draws goes to the axes it is given.", "quantifier": "all complexes, flows, options, axes", "why_tests_cant": "all options", "anchors": ["pytspl/plot/plot.py:SCPlot.draw_network", "pytspl/plot/plot.py:SCPlot._draw_node_labels"]}
{"id": "C95", "title": "Style keywords take effect", "statement": "Every documented style keyword given to draw_network sets the corresponding property of everything of its kind that is drawn (sizes, colours, colour maps, limits, fonts, widths, transparency).", "quantifier": "all keyword dictionaries, complexes, flows", "why_tests_cant": "all dictionaries", "anchors": ["pytspl/plot/plot.py:SCPlot.draw_network", "pytspl/plot/plot.py:SCPlot.draw_sc_nodes", "pytspl/plot/plot.py:SCPlot.draw_sc_edges", "pytspl/plot/plot.py:SCPlot.draw_edge_labels"]}
{"id": "C96", "title": "Eigenvector figure", "statement": "draw_eigenvectors draws one panel per requested eigenvector of the component, in the order requested (all of them by default), showing that eigenvector's entries on the edges and titled with its own eigenvalue; negative indices count from the end, indices out of range are never drawn. One row of the figure holds three panels; its height grows with the rows.", "quantifier": "all complexes, components, index lists, rounding settings, eigensolvers", "why_tests_cant": "all index lists", "anchors": ["pytspl/plot/plot.py:SCPlot.draw_eigenvectors"]}
{"id": "C97", "title": "When drawing succeeds", "statement": "draw_network with documented, well-typed options succeeds if all nodes, edges and triangles and the edges of a given non-empty flow have positions; a node without position raises KeyError. Without coordinates a complex with an edge can be drawn iff it has no isolated node.", "quantifier": "all complexes, coordinates, flows, options, layouts", "why_tests_cant": "all complexes", "anchors": ["pytspl/plot/plot.py:SCPlot.draw_network"]}
{"id": "C98", "title": "The operators see the topology", "statement": "rank(B1) plus the number of connected components is the number of nodes, and laplacian_matrix() annihilates exactly the functions constant on connected components. On consistently oriented complexes the number of independent harmonic flows is E - rank(B1) - rank(B2), so N - E + T = components - harmonic dimension + dim ker B2; the eigenpair functions return that many vectors of each kind. Every flow is its own gradient component iff the graph has no cycle.", "quantifier": "all complexes accepted by the constructor, all tolerances above machine precision without smaller positive eigenvalue", "why_tests_cant": "relates linear algebra to reachability in every graph; tests only see a few fixed graphs", "anchors": ["pytspl/simplicial_complex/simplicial_complex.py:laplacian_matrix", "pytspl/simplicial_complex/simplicial_complex.py:get_component_eigenpair", "pytspl/simplicial_complex/simplicial_complex.py:get_component_flow"]}
{"id": "C99", "title": "Renumbering changes nothing", "statement": "If a second complex has the same nodes under other numbers and the same edges and triangles listed in another order, its incidence matrices and Laplacians are those of the first with rows and columns permuted, divergence, curl and all component flows (rounded or not) of the correspondingly permuted flow are the permuted results, and the eigenvalue lists agree.", "quantifier": "all complexes on a simple graph, all renumberings of nodes and orderings of edges and triangles, all flows", "why_tests_cant": "quantifies over all permutations", "anchors": ["pytspl/simplicial_complex/simplicial_complex.py:SimplicialComplex", "pytspl/decomposition/hodge_decomposition.py"]}
{"id": "C100", "title": "The stored direction of an edge is a convention", "statement": "Storing an edge (u,v) as (v,u) and negating the flow on it negates the component flows on that edge and leaves everything else, in particular divergence and curl, as it was. (True of divergence and gradient component; false of curl, curl and harmonic component, because B2 ignores the stored direction.)", "quantifier": "all complexes on a simple graph, all sets of reversed edges, all flows", "why_tests_cant": "quantifies over all sets of reversed edges and all flows", "anchors": ["pytspl/simplicial_complex/simplicial_complex.py:triangles_to_B2", "pytspl/simplicial_complex/simplicial_complex.py:get_curl", "pytspl/simplicial_complex/simplicial_complex.py:get_component_flow"]}
{"id": "C101", "title": "Gaussian process predictions", "statement": "predict's mean for a test edge is the prior mean plus the best linear prediction of that edge's flow from the noisy training flows: no other linear combination of the observations has a smaller expected squared error under the model, and the reported variance is that minimal error plus the noise. The variance lies between the noise and prior variance plus noise, does not increase when training edges are added, and does not depend on the order of the training data; on training edges the prediction's residual is what the noise explains. Edge indices out of range raise IndexError. A model that has not been trained has prior mean 0 and ln 2 times the kernel as prior covariance; the mean is a parameter unless the mean function is \"zero\".", "quantifier": "all complexes, kernels (plain and Hodge composition, all families), hyperparameters, positive noise, training and test edges, observed flows", "why_tests_cant": "optimality over all linear predictors, and all data sets", "anchors": ["pytspl/hogde_gp/hodge_gp_trainer.py:HodgeGPTrainer.predict", "pytspl/hogde_gp/exact_gp.py:ExactGPModel"]}
{"id": "C102", "title": "Metrics reported by predict", "statement": "predict reports the mean absolute error, mean squared error and coefficient of determination of its predictive mean as a prediction of y_test; with fewer than two test values it raises ValueError instead of reporting an R2. (R2 is false of the code: the arguments are swapped, so the spread of the predictions is used instead of that of the data.)", "quantifier": "all trained models, test edges and test values", "why_tests_cant": "all test sets; a test with a near perfect fit cannot tell the swapped arguments apart", "anchors": ["pytspl/hogde_gp/hodge_gp_trainer.py:HodgeGPTrainer.predict"]}
{"id": "C103", "title": "Operators belong to the simplices", "statement": "In every program the incidence matrices (hence all operators) of a complex are those of the nodes, edges and triangles it reports. (True until the lists it was built from are changed in place; the matrices never change afterwards, so then the complex disagrees with itself.)", "quantifier": "all programs that create and change lists, builders and complexes, in any order", "why_tests_cant": "ranges over all histories of mutation and construction", "anchors": ["pytspl/simplicial_complex/simplicial_complex.py:SimplicialComplex.__init__", "pytspl/simplicial_complex/scbuilder.py:SCBuilder.to_simplicial_complex"]}
{"id": "C104", "title": "Complexes are independent", "statement": "Changing the features or simplices of one complex never changes another one. (False: complexes of one builder share its lists and dictionaries, and all builders created without features share the default dictionaries; a complex is only unaffected by changes to objects it does not refer to.)", "quantifier": "all programs that create and change lists, dictionaries, builders and complexes", "why_tests_cant": "aliasing shows only in histories that change one object and look at another", "anchors": ["pytspl/simplicial_complex/simplicial_complex.py:SimplicialComplex.__init__", "pytspl/simplicial_complex/scbuilder.py:SCBuilder.__init__"]}
{"id": "C105", "title": "Strength of denoising", "statement": "Edge-flow denoising with a larger mu never yields an estimate with larger energy x.T P x nor one closer to the observed flow. As mu grows the estimate tends, with error of order 1/mu, to the observed flow without its gradient part (L1L), without its curl part (L1U), or to its harmonic part (L1, consistently oriented complex).", "quantifier": "all complexes, flows, pairs of parameter lists, choices of P", "why_tests_cant": "monotonicity and limits in a real parameter, for all flows", "anchors": ["pytspl/filters/edge_flow_denoising.py:EdgeFlowDenoising.denoise"]}
{"id": "C106", "title": "Accuracy of Chebyshev extraction", "statement": "If the Chebyshev series is within delta of the ideal response on the spectrum of the chosen Laplacian, the final estimate is within delta |f| of the part of the flow that Laplacian sees (gradient for L1L, curl for L1U, all but harmonic for L1); within eps of the logistic function this gives delta = eps + max(1/(1+e^(s c)), 1/(1+e^(s(gap-c)))). The estimate does not depend on the component argument. With the default cut-off and steepness more than a quarter of a flow that should be removed is kept.", "quantifier": "all complexes, flows, sizes, series routines", "why_tests_cant": "error bound for all flows and complexes", "anchors": ["pytspl/filters/chebyshev_filter_design.py:ChebyshevFilterDesign.apply", "pytspl/filters/base_filter.py:BaseFilter.logistic_function"]}
{"id": "C107", "title": "Filter plots show what they claim", "statement": "plot_chebyshev_series_approx draws the logistic function and the Chebyshev series at every eigenvalue, the latter being the factors of the last stored filter; plot_frequency_response_approx draws the spectral coefficients of the true component and the last estimate, at a distance equal to that of the two flows, and raises ValueError before apply; plot_desired_frequency_response draws 1/(1+mu lambda) for the last mu.", "quantifier": "all complexes, flows, parameters, eigensolvers, histories", "why_tests_cant": "all flows and eigensolvers; tests do not inspect figures", "anchors": ["pytspl/filters/chebyshev_filter_design.py:ChebyshevFilterDesign.plot_chebyshev_series_approx", "pytspl/filters/chebyshev_filter_design.py:ChebyshevFilterDesign.plot_frequency_response_approx", "pytspl/filters/edge_flow_denoising.py:EdgeFlowDenoising.plot_desired_frequency_response"]}
{"id": "C108", "title": "A loaded dataset is what its files describe", "statement": "A successful load_dataset returns the complex of the links in its files: its edges are exactly the listed links (ids shifted to 0-based for the transportation networks), its triangles all or the listed ones, coordinates are the table rows, and flow values are attached by position to the sorted edges. If the columns of the incidence file are sorted this is the column order; if they are not, a value can end up on another edge. Every successfully loaded dataset can print its summary.", "quantifier": "all directory contents and all dataset names", "why_tests_cant": "tests load the shipped files only and compare counts", "anchors": ["pytspl/io/dataset_loader.py:load_dataset", "pytspl/io/network_reader.py:read_csv", "pytspl/io/network_reader.py:read_tntp", "pytspl/io/network_reader.py:read_B1_B2"]}
{"id": "C109", "title": "Filter results are all-or-nothing", "statement": "On the Chebyshev, grid based, edge-flow denoising and trend filters, a call that raises leaves everything recorded unchanged, whether a call raises does not depend on earlier calls, and after any sequence of calls on a new object the recorded results are exactly those of the last call that returned (nothing if none did).", "quantifier": "all call sequences, complexes, flows, parameters, noise and library results", "why_tests_cant": "ranges over all histories including failing calls", "anchors": ["pytspl/filters/base_filter.py:BaseFilter.set_history", "pytspl/filters/chebyshev_filter_design.py:ChebyshevFilterDesign.apply", "pytspl/filters/grid_based_filter_design.py:GridBasedFilterDesign", "pytspl/filters/edge_flow_denoising.py:EdgeFlowDenoising.denoise", "pytspl/filters/simplicial_trend_filter.py:SimplicialTrendFilter"]}
{"id": "C110", "title": "Statistics recorded by the trend filter", "statement": "Every successful call of denoising_l2_regularizer, denoising_l1_regularizer and interpolation_l1_regularizer records, per noise level or sampling ratio, the mean over the realisations of the relative error of the stored flows, of the norm of their divergence or curl, and of their Pearson correlation with the given flow; without realisations they are nan, and the error is nan for the zero flow.", "quantifier": "all complexes, flows, noise and sample draws, solvers, parameters", "why_tests_cant": "random inputs; all flows and numbers of realisations", "anchors": ["pytspl/filters/simplicial_trend_filter.py:SimplicialTrendFilter.denoising_l2_regularizer", "pytspl/filters/simplicial_trend_filter.py:SimplicialTrendFilter.denoising_l1_regularizer", "pytspl/filters/simplicial_trend_filter.py:SimplicialTrendFilter.interpolation_l1_regularizer"]}
{"id": "C111", "title": "Laplacians are exact in floating point", "statement": "Computed in double precision, in any order of summation, laplacian_matrix, lower/upper_laplacian_matrix and hodge_laplacian_matrix return exactly the matrices of exact arithmetic, and the product of the two incidence matrices of a consistently oriented complex is exactly zero, for complexes with at most 2^53 edges and at most 2^53 nodes and triangles.", "quantifier": "all complexes up to that size, all orders of summation, all roundings to nearest", "why_tests_cant": "summation order depends on library and size; all complexes", "anchors": ["pytspl/simplicial_complex/simplicial_complex.py:SimplicialComplex.laplacian_matrix", "pytspl/simplicial_complex/simplicial_complex.py:SimplicialComplex.lower_laplacian_matrix", "pytspl/simplicial_complex/simplicial_complex.py:SimplicialComplex.upper_laplacian_matrix", "pytspl/simplicial_complex/simplicial_complex.py:SimplicialComplex.hodge_laplacian_matrix"]}
{"id": "C112", "title": "Rounding error of divergence and curl", "statement": "For a flow of doubles, get_divergence is at every node within ((1+2^-53)^(d-1)-1) times the total magnitude of the flow on the d edges at the node of the exact net inflow (exact for d<=1), and get_curl is on every triangle within ((1+2^-53)^2-1) times the magnitude of the flow around it of the exact circulation; flows of whole numbers of total magnitude up to 2^53 give exact results.", "quantifier": "all complexes, flows of doubles, orders of summation", "why_tests_cant": "an error bound over all flows and summation orders", "anchors": ["pytspl/simplicial_complex/simplicial_complex.py:SimplicialComplex.get_divergence", "pytspl/simplicial_complex/simplicial_complex.py:SimplicialComplex.get_curl", "pytspl/decomposition/eigendecomposition.py:get_divergence"]}
{"id": "C113", "title": "Rounding error of the shifting operators", "statement": "For every flow and number of steps, apply_lower_shifting and apply_upper_shifting computed in doubles are on every edge within ((1+2^-53)^(2E)-1) times the same shift applied to magnitudes of the exact shift, and apply_k_step_shifting within ((1+2^-53)^(2E+1)-1).", "quantifier": "all complexes, flows, steps, orders of summation", "why_tests_cant": "an error bound over all flows and summation orders", "anchors": ["pytspl/simplicial_complex/simplicial_complex.py:SimplicialComplex.apply_lower_shifting", "pytspl/simplicial_complex/simplicial_complex.py:SimplicialComplex.apply_upper_shifting", "pytspl/simplicial_complex/simplicial_complex.py:SimplicialComplex.apply_k_step_shifting"]}
{"id": "C114", "title": "Flows of any shape", "statement": "get_divergence, get_curl, the shifting operators, get_component_flow and get_simplicial_embeddings accept exactly the arrays with one row per edge: a matrix of several flows is treated column by column and gives the results of the single flows, and any other scalar, vector or matrix raises (ValueError, LinAlgError for the components); an unknown component raises ValueError whatever the flow.", "quantifier": "all complexes, arrays of at most two dimensions, steps, components, rounding arguments", "why_tests_cant": "all shapes and contents", "anchors": ["pytspl/simplicial_complex/simplicial_complex.py:SimplicialComplex.get_divergence", "pytspl/simplicial_complex/simplicial_complex.py:SimplicialComplex.get_curl", "pytspl/simplicial_complex/simplicial_complex.py:SimplicialComplex.apply_lower_shifting", "pytspl/simplicial_complex/simplicial_complex.py:SimplicialComplex.apply_upper_shifting", "pytspl/simplicial_complex/simplicial_complex.py:SimplicialComplex.apply_k_step_shifting", "pytspl/simplicial_complex/simplicial_complex.py:SimplicialComplex.get_component_flow", "pytspl/simplicial_complex/simplicial_complex.py:SimplicialComplex.get_simplicial_embeddings"]}
{"id": "C115", "title": "Reference flows in edge-flow denoising", "statement": "denoise rejects flows without one row per edge; it accepts exactly the reference flows that numpy can broadcast against the estimate. A reference of the right length gives the documented error; a single number is compared with every edge; a reference given as a column is compared crosswise, so that even a perfect estimate is recorded with a positive error.", "quantifier": "all complexes, flows, references of at most two dimensions, parameters", "why_tests_cant": "all shapes and contents", "anchors": ["pytspl/filters/edge_flow_denoising.py:EdgeFlowDenoising.denoise", "pytspl/filters/base_filter.py:BaseFilter.calculate_error_NRMSE"]}
{"id": "C116", "title": "Likelihood metrics of predict", "statement": "With positive noise and at least two test edges, the log loss printed by predict is the average of minus the log density of the predicted normal distribution of each test edge, the negative log predictive density is minus the log of the joint density divided by the number of edges, both are finite, and both are smallest exactly when the targets equal the predicted means.", "quantifier": "all complexes, kernels, parameters, training and test edges and targets", "why_tests_cant": "all models and data", "anchors": ["pytspl/hogde_gp/hodge_gp_trainer.py:HodgeGPTrainer.predict"]}
{"id": "C117", "title": "What the constructors store", "statement": "At any point of a program that does not change the default arguments, SimplicialComplex(...) yields the complex computed from the present contents of its arguments, with empty lists and dictionaries for those left out, or raises and yields none; a builder made earlier yields the complex to_simplicial_complex computes from the present contents of the lists and dictionaries it was given.", "quantifier": "all programs that create and change lists, dictionaries, builders and complexes, all arguments given or left out", "why_tests_cant": "all histories of a program", "anchors": ["pytspl/simplicial_complex/simplicial_complex.py:SimplicialComplex.__init__", "pytspl/simplicial_complex/scbuilder.py:SCBuilder.__init__", "pytspl/simplicial_complex/scbuilder.py:SCBuilder.to_simplicial_complex"]}
{"id": "C118", "title": "Designed filters are local", "statement": "A filter designed with L taps acts on every flow as one fixed matrix, and the filtered value on an edge depends only on the flow on edges at most L-1 steps away, where a step goes between edges that share a node (or, for filters on the upper Laplacian, that belong to a common triangle). One application of a shifting operator reaches one step, two applications two. On a path of edges this means: flows that differ only L or more edges away give the same filtered value.", "quantifier": "all complexes, flows, filter lengths, components, numerical library results", "why_tests_cant": "a test fixes the network and the flow; locality is about every pair of flows that agree near an edge", "anchors": ["pytspl/filters/ls_filter_design.py:LSFilterDesign.subcomponent_extraction_type_one", "pytspl/filters/ls_filter_design.py:LSFilterDesign.subcomponent_extraction_type_two", "pytspl/filters/grid_based_filter_design.py:GridBasedFilterDesign", "pytspl/filters/chebyshev_filter_design.py:ChebyshevFilterDesign.apply", "pytspl/simplicial_complex/simplicial_complex.py:SimplicialComplex.apply_k_step_shifting"]}
{"id": "C119", "title": "Entries of the edge Laplacians", "statement": "lower_laplacian_matrix(1)[e, e'] is the number of common nodes at which both edges start or both end, minus those at which one starts and the other ends; on a simple graph 2 on the diagonal and +1, -1 or 0 off it. upper_laplacian_matrix(1)[e, e'] adds up over the triangles the product of the two edges' signs in the triangle's boundary; its diagonal counts the triangles at an edge, and it is 0 for edges that are not sides of a common triangle. hodge_laplacian_matrix(1) is their sum.", "quantifier": "all complexes on simple graphs, all pairs of edges", "why_tests_cant": "tests compare a few matrices", "anchors": ["pytspl/simplicial_complex/simplicial_complex.py:SimplicialComplex.lower_laplacian_matrix", "pytspl/simplicial_complex/simplicial_complex.py:SimplicialComplex.upper_laplacian_matrix", "pytspl/simplicial_complex/simplicial_complex.py:SimplicialComplex.hodge_laplacian_matrix"]}
{"id": "C120", "title": "The trainer's float32 tensors are exact", "statement": "HodgeGPTrainer.get_laplacians() returns the Hodge, lower and upper Laplacian in this order and get_incidence_matrices() the two incidence matrices, without any rounding error although they are stored as float32, for complexes on simple graphs with fewer than 2^24 - 2 triangles; so the products and sums between them that should hold do hold exactly.", "quantifier": "all such complexes, all ways of rounding to float32", "why_tests_cant": "tests look at shapes only", "anchors": ["pytspl/hogde_gp/hodge_gp_trainer.py:HodgeGPTrainer.get_laplacians", "pytspl/hogde_gp/hodge_gp_trainer.py:HodgeGPTrainer.get_incidence_matrices"]}
{"id": "C121", "title": "The tolerance is right on small networks", "statement": "Non-zero eigenvalues of lower_laplacian_matrix(1) are at least 1/((N-1) D), where N is the number of nodes and D bounds the number of edges between connected nodes; those of upper_laplacian_matrix(1) are at least 1/(T k^2), where T is the number of triangles and from every triangle an edge of a single triangle is reached in k steps. Hence with (N-1) D < 1000 and T k^2 < 1000, for instance with at most 32 nodes and no filled triangle, the default tolerance 1e-3 never mistakes an eigenvalue for zero, and get_component_eigenpair('harmonic') returns exactly the harmonic space.", "quantifier": "all complexes on simple graphs with consistently stored edges, all results of the eigensolver", "why_tests_cant": "it bounds the spectrum of every network of a size", "anchors": ["pytspl/decomposition/eigendecomposition.py:get_harmonic_eigenpair", "pytspl/simplicial_complex/simplicial_complex.py:SimplicialComplex.get_component_eigenpair"]}
{"id": "C122", "title": "Accuracy of computed components", "statement": "Whatever the least-squares solver returns (it may stop early or be inaccurate), the gradient flow computed from it is within sqrt((N-1) D) times the norm of the divergence of the remainder of the true gradient component, the curl flow within sqrt(T) k times the norm of the curl of the remainder, and the squared error of the harmonic flow is at most (N-1) D times its own squared divergence plus T k^2 times its own squared curl.", "quantifier": "all flows, complexes and solver results", "why_tests_cant": "it bounds the error for every inaccurate solver result", "anchors": ["pytspl/decomposition/hodge_decomposition.py:get_gradient_flow", "pytspl/decomposition/hodge_decomposition.py:get_curl_flow", "pytspl/decomposition/hodge_decomposition.py:get_harmonic_flow"]}
{"id": "C123", "title": "The solver's cut-off for small singular values has no effect", "statement": "np.linalg.lstsq with rcond=None drops singular values of at most eps*max(M,N) times the largest. On networks with up to a million nodes and edges this never changes the gradient component returned by get_component_flow(round_fig=False); in general the gradient, curl and harmonic components are unchanged as long as (eps max(E,N))^2 2E (N-1) D < 1 and (eps max(E,T))^2 3T T k^2 < 1, with D and k as in C121.", "quantifier": "all flows, all complexes within the bounds, all singular value decompositions", "why_tests_cant": "it needs a lower bound on the smallest singular value of every network", "anchors": ["pytspl/decomposition/hodge_decomposition.py:get_gradient_flow", "pytspl/decomposition/hodge_decomposition.py:get_curl_flow", "pytspl/decomposition/hodge_decomposition.py:get_harmonic_flow"]}
{"id": "C124", "title": "Filling triangles, adding nodes, relisting edges", "statement": "The gradient component returned by get_component_flow(round_fig=False) depends only on the edges and their flow values: not on triangles, not on further nodes, not on the order in which edges are listed. Adding triangles to a complex never shortens the curl component and never lengthens the harmonic component, and a flow that is harmonic (no divergence, no curl) afterwards was harmonic before. Two complexes with the same edges and the same set of triangles, listed in any order, decompose every flow in the same way.", "quantifier": "all flows and all pairs of complexes on a simple graph with the same edges", "why_tests_cant": "it compares all complexes on an edge set", "anchors": ["pytspl/simplicial_complex/simplicial_complex.py:SimplicialComplex.get_component_flow", "pytspl/decomposition/hodge_decomposition.py:get_gradient_flow", "pytspl/decomposition/hodge_decomposition.py:get_curl_flow", "pytspl/decomposition/hodge_decomposition.py:get_harmonic_flow"]}
{"id": "C125", "title": "Disconnected networks decompose part by part", "statement": "If no edge of a part shares a node with an edge outside, then get_component_flow(round_fig=False) on the whole network returns on the part what it returns for the part as a network of its own (with the triangles that have a side in it), for each of the three components. What the flow is outside the part has no influence on the components inside.", "quantifier": "all flows, networks and parts", "why_tests_cant": "it ranges over all networks and all ways they fall apart", "anchors": ["pytspl/simplicial_complex/simplicial_complex.py:SimplicialComplex.get_component_flow", "pytspl/decomposition/hodge_decomposition.py:get_gradient_flow", "pytspl/decomposition/hodge_decomposition.py:get_curl_flow", "pytspl/decomposition/hodge_decomposition.py:get_harmonic_flow"]}
{"id": "C126", "title": "Colour scales", "statement": "When edges are coloured by numbers (a flow, or a list of numbers as edge_color), draw_sc_edges draws one colour bar, and every edge is drawn with the limits and the colour map of that colour bar; when nodes are coloured by numbers, draw_sc_nodes draws one colour bar and the nodes with its limits. Limits that are given are used; by default the scale runs from m - |m|/2, m the smallest value, to the largest value, so no value is clipped. draw_network draws all edges of a flow on one such scale.", "quantifier": "all complexes, positions, flows, colour lists and keyword dictionaries", "why_tests_cant": "all flows and option combinations", "anchors": ["pytspl/plot/plot.py:SCPlot.draw_sc_edges", "pytspl/plot/plot.py:SCPlot.draw_sc_nodes", "pytspl/plot/plot.py:SCPlot.draw_network"]}
{"id": "C127", "title": "Eigenpairs from an eigensolver with rounding errors", "statement": "Suppose the eigenvalues and (orthonormal) eigenvectors returned by the eigensolver reproduce the Laplacians only up to an error delta, delta is below the tolerance, and no Laplacian has an eigenvalue strictly between 0 and tolerance + delta. Then get_component_eigenpair still returns exactly as many harmonic, curl and gradient eigenvectors as the exact spaces have dimensions, and these numbers add up to the number of edges. The columns returned for each component are orthonormal, and projecting any flow on them (which is what get_simplicial_embeddings does) gives its harmonic, curl and gradient component up to 2 delta / tolerance times the length of the flow. Every harmonic eigenvector returned has divergence and curl of squared size at most 2 delta, and an eigenvalue of size at most delta. In particular, with the default tolerance and a solver error of up to 1e-5, networks of up to 32 nodes without triangles get the right number of harmonic eigenvectors.", "quantifier": "all complexes without loops and with consistently oriented triangles, all eigensolver results within the error, all tolerances between the error and the spectral gap, all flows", "why_tests_cant": "A test sees the rounding errors of one library version on one matrix; the claim is about every result an eigensolver of the stated accuracy may return, on every complex.", "anchors": ["pytspl/decomposition/eigendecomposition.py:get_eigendecomposition", "pytspl/decomposition/eigendecomposition.py:get_harmonic_eigenpair", "pytspl/decomposition/eigendecomposition.py:get_curl_eigenpair", "pytspl/decomposition/eigendecomposition.py:get_gradient_eigenpair", "pytspl/simplicial_complex/simplicial_complex.py:get_component_eigenpair", "pytspl/simplicial_complex/simplicial_complex.py:get_simplicial_embeddings"]}
{"id": "C128", "title": "Which exception a bad input raises", "statement": "read_csv raises ValueError when a node id is missing or is a text other than an integer. read_coordinates raises KeyError without the id column or a coordinate column, and TypeError for text ids that have to be lowered by one. A flow table without one of its columns raises KeyError. load_wsn_data raises ValueError when resistances and flow rates differ in number (numpy's broadcasting of a single flow rate aside) and IndexError for a single pipe. Drawing an empty flow raises ValueError unless both colour limits are given. The polynomial filters raise ValueError for a negative size, UnboundLocalError for size 0, and compute nothing finite when the grid is not finite; nothing is recorded.", "quantifier": "all tables, arrays, keyword dictionaries, complexes, flows and filter sizes", "why_tests_cant": "all malformed inputs", "anchors": ["pytspl/io/network_reader.py:_extract_nodes_edges", "pytspl/io/network_reader.py:read_coordinates", "pytspl/io/data_loaders/transportation_loader.py:load_flow_transportation", "pytspl/io/data_loaders/wsn_loader.py:load_wsn_data", "pytspl/plot/plot.py:SCPlot.draw_sc_edges", "pytspl/filters/grid_based_filter_design.py:GridBasedFilterDesign.denoise", "pytspl/filters/ls_filter_design.py:LSFilterDesign.subcomponent_extraction_type_two"]}
{"id": "C129", "title": "Results do not depend on which correct numerical library is used", "statement": "Least-squares solvers and eigensolvers may return different orthonormal bases of an eigenspace, opposite signs, and may break ties in a sort differently. For any two libraries that meet their documented contract: the components of a flow (rounded or not) and the Hodge decomposition figure are equal; the eigenvalues are equal in order; the eigenpairs of a component are interchangeable (same eigenvalues, and every function of the eigenvalues put together with the eigenvectors gives the same matrix, so the same projector and the same lengths of embeddings); every Gaussian process kernel gives the same covariances, so a model trained on the same data makes the same predictions, and the exported Matern kernel is equal; edge-flow denoising, both least-squares filters, the grid-based filters and both general filters leave the same history and raise the same exceptions (the first least-squares filter for well-formed complexes, although its target mask depends on how ties are broken); the Chebyshev filter records the same filters, estimates and errors.", "quantifier": "all pairs of numerical libraries satisfying the contract, all complexes, flows, component names, sizes, tolerances, states of the filter object", "why_tests_cant": "a test runs one library on one machine; the claim compares every pair of correct libraries on every complex, including degenerate spectra", "anchors": ["pytspl/decomposition/hodge_decomposition.py", "pytspl/decomposition/eigendecomposition.py", "pytspl/simplicial_complex/simplicial_complex.py:get_component_flow", "pytspl/filters/base_filter.py:get_component_coefficients", "pytspl/filters/ls_filter_design.py", "pytspl/filters/grid_based_filter_design.py", "pytspl/filters/edge_flow_denoising.py", "pytspl/filters/chebyshev_filter_design.py:apply", "pytspl/hogde_gp/hodge_gp_trainer.py:build_matern_kernel"]}
{"id": "C130", "title": "The recorded frequency response is the gain of the filter", "statement": "For both least-squares filters, both grid-based filters and edge-flow denoising: the designed filter and its response do not depend on the flow; the estimate is the filter applied to the flow; every value of the last recorded frequency response is attained by a unit flow, and if no value exceeds G in size the filter never multiplies the norm of a flow by more than G. So estimates of two flows differ by at most G times the difference of the flows. Extraction of a component never amplifies noise; if a flow consists of the component alone, the error left after extraction from flow plus noise is exactly the component of the noise, and the energy of the removed part makes up the rest.", "quantifier": "all complexes, flows and noise flows, components, filter sizes, parameters, states of the filter object", "why_tests_cant": "the bound is over all flows and all noise", "anchors": ["pytspl/filters/ls_filter_design.py", "pytspl/filters/grid_based_filter_design.py", "pytspl/filters/edge_flow_denoising.py:denoise", "pytspl/simplicial_complex/simplicial_complex.py:get_component_flow"]}
{"id": "C131", "title": "Filters do not depend on the numbering", "statement": "If a second complex has the same nodes under other numbers and the same edges and triangles listed in another order, then edge-flow denoising, the least-squares filters of both types, the grid-based filters and both general filters, called with the correspondingly reordered flow on filter objects in corresponding states, raise the same exception or return the reordered flows and leave corresponding histories: filter matrices and estimates are reordered, frequency responses and errors are the same lists. The plotted frequency response is the same. The Chebyshev filters of every order, their estimates and errors correspond too.", "quantifier": "all complexes on a simple graph, all renumberings of nodes and orderings of edges and triangles, all flows, parameters and earlier histories", "why_tests_cant": "quantifies over all permutations and all call histories", "anchors": ["pytspl/filters/edge_flow_denoising.py:EdgeFlowDenoising", "pytspl/filters/ls_filter_design.py:LSFilterDesign", "pytspl/filters/grid_based_filter_design.py:GridBasedFilterDesign", "pytspl/filters/chebyshev_filter_design.py:ChebyshevFilterDesign"]}
{"id": "C132", "title": "Gaussian process models do not depend on the numbering", "statement": "If a second complex has the same nodes under other numbers and the same edges and triangles listed in another order, the eigenpairs of its gradient, curl and harmonic parts, read in the first numbering, are interchangeable with those of the first complex. Every Hodge kernel and its version without Hodge components gives corresponding edges the same covariance, or raises the same exception. A model trained on corresponding edges with the same targets predicts the same means and covariances at corresponding test edges. The exported Matern kernel matrices correspond.", "quantifier": "all complexes on a simple graph, all renumberings of nodes and orderings of edges and triangles, all kernels, hyperparameters, training and test sets", "why_tests_cant": "quantifies over all permutations, all complexes and all hyperparameters", "anchors": ["pytspl/hogde_gp/forex/matern.py", "pytspl/hogde_gp/forex/matern_non_hc.py:MaternNonHCKernelForex", "pytspl/hogde_gp/forex/diffusion.py:DiffusionKernelForex", "pytspl/hogde_gp/forex/diffusion_non_hc.py:DiffusionNonHCKernelForex", "pytspl/hogde_gp/forex/laplacian.py:LaplacianKernelForex", "pytspl/hogde_gp/hodge_gp_trainer.py:get_eigenpairs", "pytspl/hogde_gp/hodge_gp_trainer.py:build_matern_kernel", "pytspl/hogde_gp/exact_gp.py:ExactGPModel"]}
{"id": "C133", "title": "The l1 trend filter is determined by its arguments", "statement": "Two calls of the l1 trend filter with the same complex, flow, component, weight and noise store the same flows. (False: the objective uses the norm of the residual, not its square, so it can have many minimisers. With one edge, the default weight 0.5, flow 1 and no noise every value in [0, 1] is a correct answer. What holds: any two correct answers have the same objective, and their deviations from the noisy flow have the same direction.)", "quantifier": "all complexes with edges, flows, components, orders, weights >= 0, noise, all correct solvers", "why_tests_cant": "a test sees the answer of one solver; the claim compares all correct solvers", "anchors": ["pytspl/filters/simplicial_trend_filter.py:denoising_l1_regularizer", "pytspl/filters/simplicial_trend_filter.py:_solver"]}
{"id": "C134", "title": "What the weight of the l1 trend filter does", "statement": "For every complex, component and order there is a positive weight below which the l1 trend filter returns the noisy flow unchanged (for order 0: 2 mu sqrt(E) < 1 for the divergence, mu T sqrt(E) < 1 for the curl, with E edges and T triangles), and a weight above which a larger weight changes nothing: the result is the noisy flow minus its gradient component (divergence) or minus its curl component (curl), whatever the order. The thresholds do not depend on the flow or the noise.", "quantifier": "all complexes with edges, orders, flows, noise, settings and realisations, all correct solvers", "why_tests_cant": "thresholds uniform in all flows, noises and solvers", "anchors": ["pytspl/filters/simplicial_trend_filter.py:denoising_l1_regularizer", "pytspl/filters/simplicial_trend_filter.py:get_shift_operator", "pytspl/simplicial_complex/simplicial_complex.py:get_component_flow"]}
{"id": "C135", "title": "Trend filters do not depend on the numbering", "statement": "If a second complex has the same nodes under other numbers and the same edges and triangles listed in another order, and flow and noise are reordered accordingly, the shift operators are the same up to the numbering, and the l2 trend filter raises the same exception or leaves a corresponding history: filter and flows reordered, norms, errors and correlations equal. The l1 trend filter stores equally good flows that deviate from the noisy flow in the same direction (equality fails already without renumbering, see C133).", "quantifier": "all complexes on a simple graph, all renumberings, flows, noise, components, settings, weights", "why_tests_cant": "quantifies over all permutations and all flows", "anchors": ["pytspl/filters/simplicial_trend_filter.py:SimplicialTrendFilter"]}
{"id": "C136", "title": "The printed summary", "statement": "print_summary starts with the numbers of nodes, edges and triangles; two complexes with the same printed text have the same shape, and constructed complexes with the same shape print the same text with the same outcome. The last line names the dimension 2, 1 or 0 of the largest simplices. Only the empty complex makes the call raise (ValueError), after four lines have been printed.", "quantifier": "all pairs of complexes", "why_tests_cant": "compares all pairs of complexes of any size", "anchors": ["pytspl/simplicial_complex/simplicial_complex.py:print_summary", "pytspl/simplicial_complex/simplicial_complex.py:shape", "pytspl/simplicial_complex/simplicial_complex.py:max_dim"]}
{"id": "C137", "title": "How far trend filters can be off", "statement": "The l1 trend filter moves the noisy flow no further than the nearest flow without the penalised component is away, and no further than the weight times the penalty of the noisy flow. So if the given flow has no divergence (curl), the error is at most twice the added noise. For the l2 filter the distance to every divergence-free flow does not increase. Interpolation of a flow without the penalised component returns at most the energy of the flow, so its relative error is at most 2; below a positive weight that depends only on complex, component and order it does nothing: every edge that was not sampled gets the value 0.", "quantifier": "all complexes, flows, noise, components, orders, weights >= 0, sampling ratios in [0, 1], samples, all correct solvers", "why_tests_cant": "bounds for all flows, all noise and all solvers", "anchors": ["pytspl/filters/simplicial_trend_filter.py:denoising_l1_regularizer", "pytspl/filters/simplicial_trend_filter.py:denoising_l2_regularizer", "pytspl/filters/simplicial_trend_filter.py:interpolation_l1_regularizer"]}
{"id": "C138", "title": "Building a complex visits every clique", "statement": "Listing the triangles of a network runs through every non-empty set of pairwise adjacent nodes exactly once, of any size and not only the triangles. So a network with k pairwise adjacent nodes takes at least 2^k - 1 passes, and one with n nodes at most 2^n - 1, which is attained by complete networks, although these have only n(n-1)(n-2)/6 triangles.", "quantifier": "all networks without loops, of any size", "why_tests_cant": "a lower bound on the work for all networks; the inputs where it matters cannot be run", "anchors": ["pytspl/simplicial_complex/scbuilder.py:triangles", "pytspl/simplicial_complex/scbuilder.py:triangles_dist_based", "pytspl/simplicial_complex/scbuilder.py:to_simplicial_complex"]}
{"id": "C139", "title": "What the solver's cut-off costs in the polynomial filters", "statement": "numpy's least-squares solver drops singular values below its default cut-off. In every pass of the least-squares and grid-based designs the stored filter is still a polynomial of the matrix of at most the degree of the pass, and no polynomial of that degree fits the targets better by more than the machine precision times the larger dimension of the system, times the size of the system, times the size of the coefficients of that polynomial. So when the type-two design is exact without the cut-off (C53), its estimate with the cut-off is off by at most that bound relative to the flow.", "quantifier": "all matrices, flows, frequencies, targets, filter sizes and passes, all singular value decompositions numpy may use", "why_tests_cant": "a bound for all systems, however ill-conditioned, and all decompositions", "anchors": ["pytspl/filters/ls_filter_design.py:_apply_filter", "pytspl/filters/ls_filter_design.py:subcomponent_extraction_type_two", "pytspl/filters/grid_based_filter_design.py:_apply_filter"]}
{"id": "C140", "title": "Denoising with an inverse that has rounding errors", "statement": "If the matrix inverse used by edge-flow denoising and by the l2 trend filter has a residual of at most delta (|(M H - I) v| <= delta |v| for all v) and the parameters are at least 0, then everything the methods store is close to what exact arithmetic gives: filters and frequency responses within delta, flows within delta times the norm of the filtered flow, errors within delta times that norm over the norm of the reference.", "quantifier": "all complexes with edges, flows, references, lists of parameters >= 0, noise, and all inversion routines", "why_tests_cant": "quantifies over all inversion routines and all inputs", "anchors": ["pytspl/filters/edge_flow_denoising.py:denoise", "pytspl/filters/simplicial_trend_filter.py:denoising_l2_regularizer"]}
{"id": "C141", "title": "The loss that train minimises", "statement": "In every pass, train prints and hands to the optimiser minus the log marginal likelihood of the training targets per edge under the current parameters (a normal distribution with the prior mean and the prior covariance of the training edges plus the noise). (False after predict: predict leaves the model in evaluation mode, train does not change the mode, and the first loss printed is then strictly smaller, because the distribution has already been conditioned on the targets; model.train() restores the property.) In training mode, other inputs than those of the model raise RuntimeError before anything is printed or changed.", "quantifier": "all complexes, kernels and parameter values with positive noise, training edges, targets, numbers of passes and optimisers", "why_tests_cant": "the loss is a determinant and an inverse for arbitrary data, and the failure depends on the order of calls", "anchors": ["pytspl/hogde_gp/hodge_gp_trainer.py:HodgeGPTrainer.train", "pytspl/hogde_gp/hodge_gp_trainer.py:HodgeGPTrainer.predict", "pytspl/hogde_gp/exact_gp.py:ExactGPModel"]}
{"id": "C142", "title": "Filters keep the Hodge components apart", "statement": "Filtering commutes with the Hodge decomposition: for every filter that LSFilterDesign, GridBasedFilterDesign, ChebyshevFilterDesign, EdgeFlowDenoising or the l2 trend filter stores, get_component_flow of the filtered flow is the filtered get_component_flow, for each of gradient, curl and harmonic. All flows that the chosen matrix does not see (no divergence and no curl; for L1L no divergence; for L1U no curl) are multiplied by one and the same number.", "quantifier": "all consistently oriented complexes, all flows, all matrix choices, components, filter sizes, cut-offs, steepness and regularisation parameters (of either sign) for which the call returns, all valid states of the design object", "why_tests_cant": "a test compares the components of a few filtered flows up to rounding; that no component leaks into another must hold for every flow, complex and parameter", "anchors": ["pytspl/filters/ls_filter_design.py: LSFilterDesign.subcomponent_extraction_type_one, subcomponent_extraction_type_two", "pytspl/filters/grid_based_filter_design.py: GridBasedFilterDesign.denoise, subcomponent_extraction", "pytspl/filters/chebyshev_filter_design.py: ChebyshevFilterDesign.apply", "pytspl/filters/edge_flow_denoising.py: EdgeFlowDenoising.denoise", "pytspl/filters/simplicial_trend_filter.py: SimplicialTrendFilter.denoising_l2_regularizer", "pytspl/simplicial_complex/simplicial_complex.py: SimplicialComplex.get_component_flow"]}
{"id": "C143", "title": "Disconnected networks are processed part by part", "statement": "If a network falls into parts that share no node, then on the edges of a part the shifting operators give what they give for the part as a network of its own with the flow restricted to it; if the l2 edge-flow denoiser returns on the whole network then it returns on the part with the same parameters, and its estimate is the restriction of the estimate for the whole; every least-squares, grid and Chebyshev filter designed for the whole network leaves the parts unmixed, so what it gives on a part does not depend on the flow elsewhere. A Hodge Gaussian process has on the part the covariances it has for the part alone with the same parameters, flows on different parts are uncorrelated, and its predictions on a part are the predictions of the part's own model from the observations made there, whatever was observed elsewhere; the same holds for the exported Matern covariance.", "quantifier": "all complexes on simple graphs, all parts sharing no node with the rest, all flows, parameters, kernels, sets of observed and predicted edges, all numerical libraries meeting the contract (different ones for the whole and the part)", "why_tests_cant": "a test fixes one network; that no computation leaks across parts must hold for all networks, and eigenvectors returned for a disconnected network may mix the parts whenever an eigenvalue occurs in more than one of them", "anchors": ["pytspl/simplicial_complex/simplicial_complex.py:apply_lower_shifting,apply_upper_shifting,apply_k_step_shifting,get_component_eigenpair", "pytspl/filters/edge_flow_denoising.py", "pytspl/filters/ls_filter_design.py", "pytspl/filters/grid_based_filter_design.py", "pytspl/filters/chebyshev_filter_design.py", "pytspl/hogde_gp/exact_gp.py", "pytspl/hogde_gp/hodge_gp_trainer.py:predict,build_matern_kernel"]}
{"id": "C144", "title": "The three kinds of eigenvectors are an orthonormal basis on every complex", "statement": "On every consistently oriented complex, including those with Hodge eigenvalues below the tolerance, and for every tolerance of at least machine epsilon that is not itself an eigenvalue of the upper Laplacian, the harmonic, curl and gradient eigenvectors returned by get_component_eigenpair are together an orthonormal basis of the edge flows: their numbers add up to the number of edges, each block is orthonormal, blocks are mutually orthogonal and every flow is the sum of its parts. If the tolerance is such an eigenvalue the numbers add up to more than the number of edges. No rational tolerance other than an integer, in particular not the default 1e-3, is such an eigenvalue. Hence get_eigenpairs of the Gaussian process trainer hands a basis to the kernels, the embeddings of get_simplicial_embeddings always carry all the energy and rebuild the flow, the masks of get_component_coefficients always have one entry per edge, mark every position for exactly one component, and mark as harmonic exactly the sorted eigenvalues up to 1/1000; and the harmonic eigenvectors always span at least the harmonic space.", "quantifier": "all consistently oriented complexes, all tolerances, all flows, all eigensolvers and sorting tie-breaks", "why_tests_cant": "the tests use small complexes without small eigenvalues; that the default tolerance is never an eigenvalue is a fact about all integer matrices", "anchors": ["pytspl/simplicial_complex/simplicial_complex.py:SimplicialComplex.get_component_eigenpair", "pytspl/simplicial_complex/simplicial_complex.py:SimplicialComplex.get_simplicial_embeddings", "pytspl/decomposition/eigendecomposition.py:get_harmonic_eigenpair", "pytspl/decomposition/eigendecomposition.py:get_curl_eigenpair", "pytspl/decomposition/eigendecomposition.py:get_gradient_eigenpair", "pytspl/filters/base_filter.py:BaseFilter.get_component_coefficients"]}
{"id": "C145", "title": "A trainer reports the model object it trained", "statement": "After any sequence of calls, get_model_parameters of a trainer returns the present parameters of the model object given to its last train call that returned: its kernel's parameters, its output scale and the noise of the model's own likelihood, whatever has been called since; before such a call it raises AttributeError, also if train was called and raised. Creating objects, splitting, predicting, asking for parameters, exporting the kernel and model.train() change no parameter of any model. predict adds the noise of the likelihood it is given and nothing else of it; train with another likelihood than the model's prints the marginal loss with the noise of that likelihood and never changes it; with the model's own likelihood train and predict do what C141 and C101 describe, whatever other objects exist. At every point the noise of every likelihood is positive.", "quantifier": "all programs: finite sequences of creations of kernels, likelihoods, models and trainers, splits, trainings, predictions, parameter reads and changes, kernel exports and mode changes, in any order and with any sharing; all optimisers", "why_tests_cant": "the report depends on the whole history of calls and on which objects are shared", "anchors": ["pytspl/hogde_gp/hodge_gp_trainer.py:HodgeGPTrainer.train", "pytspl/hogde_gp/hodge_gp_trainer.py:HodgeGPTrainer.predict", "pytspl/hogde_gp/hodge_gp_trainer.py:HodgeGPTrainer.get_model_parameters", "pytspl/hogde_gp/exact_gp.py:ExactGPModel"]}
{"id": "C146", "title": "Models are independent", "statement": "Training, changing or using one model never changes another one. (False: models that were given the same kernel or likelihood object share its parameters, so training one changes the other; a model is only unaffected by calls that do not change it, its kernel or its likelihood.)", "quantifier": "all programs as in C145", "why_tests_cant": "sharing shows only in histories that train one model and look at another", "anchors": ["pytspl/hogde_gp/exact_gp.py:ExactGPModel.__init__", "pytspl/hogde_gp/hodge_gp_trainer.py:HodgeGPTrainer.train"]}
{"id": "C147", "title": "The seed determines the random complex", "statement": "Two calls of generate_random_simplicial_complex with the same arguments return the same complex and coordinates. What holds: nodes and edges depend on the number of nodes, the probability and the seed only; with a threshold of at least 1 the triangles do too (unless a weight of exactly 0 is drawn); after random.seed and np.random.seed everything is determined, whatever was called before. The rest is false: the weights and the layout come from the process-wide generators, which the seed argument does not touch, so two equal calls in a row can return complexes with different triangles. np.random.seed alone has no influence on the simplices and features.", "quantifier": "all numbers of nodes, probabilities, thresholds, seeds, all generators, all calls made before", "why_tests_cant": "a test sees one state of the generators; the claim is about every history of the process", "anchors": ["pytspl/io/sc_generator.py:generate_random_simplicial_complex"]}
{"id": "C148", "title": "Rounding error of the least-squares and grid filters", "statement": "Computed in doubles, the estimate of an LS or grid-based filter of size L with coefficients h is on every edge within ((1+2^-53)^((E+1)(L+1)) - 1) * sum_k |h_k| (|P|^k |f|) of the exact estimate sum_k h_k P^k f, whatever way scipy groups the factors of the powers, orders the sums and fuses multiplications with additions.", "quantifier": "all complexes, coefficient vectors, flows, roundings to doubles, groupings of powers, orders of summation", "why_tests_cant": "tests compare a few flows with a tolerance; the bound has to hold for every flow and every order of operations", "anchors": ["pytspl/filters/ls_filter_design.py:LSFilterDesign._apply_filter", "pytspl/filters/grid_based_filter_design.py:GridBasedFilterDesign._apply_filter"]}
{"id": "C149", "title": "Rounding error of the Chebyshev filter", "statement": "Computed in doubles, the estimate of the Chebyshev filter of size L with series coefficients c and half-width alpha is on every edge within ((1+2^-53)^((E+6)(L+1)) - 1) times the magnitudes' recurrence applied to |c| and |f| of the exact estimate sum_k c_k T_k((P - alpha I)/alpha) f.", "quantifier": "all matrices, coefficients, alpha, flows, roundings to doubles, orders of summation", "why_tests_cant": "tests compare a few flows with a tolerance; the bound has to hold for every flow and every order of operations", "anchors": ["pytspl/filters/chebyshev_filter_design.py:ChebyshevFilterDesign._chebyshev_filter_approximate", "pytspl/filters/chebyshev_filter_design.py:ChebyshevFilterDesign.apply"]}
{"id": "C150", "title": "Computed Hodge components add up", "statement": "In doubles the gradient, curl and harmonic components of a flow add up to it on every edge up to 3*2^-53 times the magnitudes involved, whatever the least-squares solver returned; rounded to d digits they add up to three half units of the last digit kept plus 10*2^-53 times the magnitudes.", "quantifier": "all complexes, flows, solver results, digit counts from -15 to 15, roundings to doubles, orders of summation", "why_tests_cant": "tests compare a few decompositions with a tolerance; the bound has to hold for every flow and every result of the solver", "anchors": ["pytspl/decomposition/hodge_decomposition.py:get_gradient_flow", "pytspl/decomposition/hodge_decomposition.py:get_curl_flow", "pytspl/decomposition/hodge_decomposition.py:get_harmonic_flow"]}
{"id": "C151", "title": "Computed components are nearly curl-free and divergence-free", "statement": "In doubles the gradient component on an edge is the difference of the solver's potential at its ends rounded once, so it circulates around a triangle by at most 1/(2^53-1) of its magnitudes there; the net inflow of the curl component at a node is at most ((1+2^-53)^(k-1) - 1) times the solver's numbers on the k triangles of each edge at the node, hence zero where no edge has two triangles. Neither depends on how accurate the solver is.", "quantifier": "all well-formed complexes, solver results, roundings to doubles, orders of summation", "why_tests_cant": "the bounds have to hold for every flow and every result of the solver, including inaccurate ones", "anchors": ["pytspl/decomposition/hodge_decomposition.py:get_gradient_flow", "pytspl/decomposition/hodge_decomposition.py:get_curl_flow"]}
{"id": "C152", "title": "The estimated largest eigenvalue is the largest eigenvalue", "statement": "The number get_alpha of the Chebyshev design returns as lambda_max, which is also where the frequency grid of the grid-based design ends, is the largest eigenvalue of the chosen Laplacian up to the error of 50 power iterations. Hence the Chebyshev series is evaluated inside [-1, 1] and the grid covers the spectrum.", "quantifier": "every simplicial complex with at least one edge, every choice of Laplacian for which the estimate is finite", "why_tests_cant": "the estimate depends on how the all-ones flow meets the eigenspaces of the Laplacian, which differs from complex to complex; a test sees one complex at a time", "anchors": ["pytspl/filters/chebyshev_filter_design.py:get_alpha", "pytspl/filters/base_filter.py:power_iteration", "pytspl/filters/grid_based_filter_design.py:_sample_grid_points"]}
{"id": "C153", "title": "Computed Hodge components can be checked from their computed divergence and curl", "statement": "Let a gradient part be computed in double precision from any potential, a curl part from any triangle signal, and the harmonic part by subtracting the two from the flow, whatever the least squares solver returned. Then the distance (Euclidean norm) of the computed gradient part from the exact gradient part of the flow is at most a constant of the network times the norm of the computed divergence of what it leaves of the flow, plus a rounding term of order (number of edges)/2^52 times the norms of numbers the user has. The same holds for the curl part with the computed curl, and for the harmonic part with its own computed divergence and curl. The constants are sqrt((nodes-1) * diameter) for the divergence and sqrt(triangles) * depth for the curl, where depth is the number of rounds in which triangles with a side of their own can be removed. So a user who sees small computed residuals may trust the components, without trusting the solver.", "quantifier": "Every simplicial complex in range without loops (for the curl and harmonic parts: on a simple graph whose triangles can be removed in `depth` rounds; harmonic: oriented triangles), every flow, every double potential and triangle signal, every order in which the sums are evaluated, every rounding that obeys IEEE double precision without underflow and overflow.", "why_tests_cant": "It is an inequality between computed and exact quantities for every network, flow, solver result and evaluation order; tests do not have the exact components.", "anchors": ["pytspl/decomposition/hodge_decomposition.py:get_gradient_flow", "pytspl/decomposition/hodge_decomposition.py:get_curl_flow", "pytspl/decomposition/hodge_decomposition.py:get_harmonic_flow", "pytspl/decomposition/eigendecomposition.py:get_divergence", "pytspl/decomposition/eigendecomposition.py:get_curl"]}
{"id": "C154", "title": "Results do not depend on the unit of the flow", "statement": "Multiplying the flow by a constant c other than zero (and, where the method takes one, the true flow as well) multiplies every estimate by c and changes nothing else: unrounded Hodge components and the flows the general filters return are multiplied by c; the least-squares, grid, edge-flow and Chebyshev filters raise the same exception or none, store the same filters, the same frequency responses (the Chebyshev filter stores a flow under that key, which is multiplied by c) and the same relative errors, and c times the estimates. For c > 0 the trend filters, given the same random numbers, store c times the flows and component norms, and the same filter, errors and correlations (with the penalty of absolute values: with the solver's choice among minimisers carried over), and the Gaussian-process trainer with normalisation hands the same numbers to the model. The exception is the rounding of get_component_flow to two decimals by default: it makes every component of a flow shorter than 0.005 zero.", "quantifier": "Every simplicial complex, flow, true flow, constant, state of the filter object before the call and values of the other arguments; every noise and sample; every convex solver.", "why_tests_cant": "Homogeneity is a relation between two runs for every flow and constant; a threshold or an absolute tolerance somewhere would only show for flows of a certain size.", "anchors": ["pytspl/decomposition/hodge_decomposition.py:get_gradient_flow", "pytspl/filters/ls_filter_design.py:LSFilterDesign", "pytspl/filters/grid_based_filter_design.py:GridBasedFilterDesign", "pytspl/filters/edge_flow_denoising.py:EdgeFlowDenoising.denoise", "pytspl/filters/chebyshev_filter_design.py:ChebyshevFilterDesign.apply", "pytspl/filters/simplicial_trend_filter.py:SimplicialTrendFilter", "pytspl/hogde_gp/hodge_gp_trainer.py:HodgeGPTrainer.train_test_split"]}
{"id": "C155", "title": "A designed filter does not depend on the flow it is designed on", "statement": "Two calls of the same method of a least-squares, grid, edge-flow or Chebyshev filter with the same arguments except for the flow (and the true flow) raise the same exception or none, and leave histories that agree except for the estimates (for the Chebyshev filter also the stored frequency responses, which are those of the flow) and their errors. In particular the stored filter and the error of the filter are the same. This holds for objects whose earlier histories agree in the same sense, so for any sequence of calls.", "quantifier": "Every simplicial complex, pair of flows, pair of true flows, pair of prior states that agree except for estimates and errors, and all other arguments.", "why_tests_cant": "It is a non-interference property: it relates two runs for every pair of flows.", "anchors": ["pytspl/filters/ls_filter_design.py:LSFilterDesign", "pytspl/filters/grid_based_filter_design.py:GridBasedFilterDesign", "pytspl/filters/edge_flow_denoising.py:EdgeFlowDenoising.denoise", "pytspl/filters/chebyshev_filter_design.py:ChebyshevFilterDesign.apply"]}
{"id": "C156", "title": "Reported errors are accurate", "statement": "The error calculate_error_NRMSE reports for arrays of doubles with n entries, computed in double precision, has a relative error of at most (3 n + 7) / 2^52 compared with the exact norm of the difference divided by the exact norm of the true flow. It is defined whenever the true flow is not zero, and it is zero only if the estimate is the true flow, entry by entry. The mean of k reported errors (what the trend filters store) has a relative error of at most (3 n + 2 k + 8) / 2^52. If the estimate itself is off by d, the reported error is off by at most 2 d over the norm of the true flow in addition.", "quantifier": "Every pair of flows of at most 2^48 entries, every order in which the squares are added up, with or without fused multiply-add, and every rounding to nearest without overflow and underflow; every list of at most 2^48 errors.", "why_tests_cant": "It bounds a rounding error for all inputs and evaluation orders; tests compare with another computation in doubles.", "anchors": ["pytspl/filters/base_filter.py:BaseFilter.calculate_error_NRMSE", "pytspl/filters/simplicial_trend_filter.py:SimplicialTrendFilter.denoising_l2_regularizer"]}
{"id": "C157", "title": "The progress lines say what the call records", "statement": "While it runs, a filter prints one line per setting (filter size, mu, signal-to-noise ratio or sampling ratio), in order, and the figures in the line are those the call records for that setting, to four decimals; lines already printed stay when a later setting raises. (False: the filters of least-squares, grid-based and Chebyshev design print sizes that are one or two too small, the trend filter prints the power ratio with the unit dB, so 20 dB appears as 100 dB, and the l2 filter divides the error of the noisy flow by the number of settings still to come, this one included.)", "quantifier": "all complexes, flows, components, sizes, lists of settings, noises, solvers and numerical libraries", "why_tests_cant": "tests do not read the output, and every input has its own lines", "anchors": ["pytspl/filters/simplicial_trend_filter.py:denoising_l2_regularizer", "pytspl/filters/simplicial_trend_filter.py:denoising_l1_regularizer", "pytspl/filters/simplicial_trend_filter.py:interpolation_l1_regularizer", "pytspl/filters/ls_filter_design.py:LSFilterDesign", "pytspl/filters/grid_based_filter_design.py:GridBasedFilterDesign", "pytspl/filters/edge_flow_denoising.py:EdgeFlowDenoising", "pytspl/filters/chebyshev_filter_design.py:ChebyshevFilterDesign"]}
{"id": "C158", "title": "A larger filter records the curves of all smaller ones", "statement": "For the least-squares and grid-based designs: when a call of size L returns, so does the same call with any positive size L' <= L, and the errors and frequency responses it records are the first L' of those recorded with size L, whatever the filter objects were used for before.", "quantifier": "all complexes, flows, components, matrices, sizes, parameters, earlier histories and numerical libraries", "why_tests_cant": "pairs of runs over all inputs; the larger run solves least-squares problems with columns that are not filled yet", "anchors": ["pytspl/filters/ls_filter_design.py:subcomponent_extraction_type_one", "pytspl/filters/ls_filter_design.py:subcomponent_extraction_type_two", "pytspl/filters/grid_based_filter_design.py:denoise", "pytspl/filters/grid_based_filter_design.py:subcomponent_extraction"]}
{"id": "C159", "title": "The least-squares filter is the best filter of its size", "statement": "On a complex whose Hodge Laplacian has no eigenvalue in (0, 1/1000), the filter designed by subcomponent_extraction_type_one with size L extracts its component with the least total squared error, over any orthonormal family of flows, among all polynomials of the Hodge Laplacian with L coefficients, whatever flow it was designed with; the squared distance between each recorded frequency response and the mask is the total error of the filter of that size and never increases; and the design returns exactly for a complex with edges, one of the three components and a positive size.", "quantifier": "all well-formed complexes with that spectral gap, flows, components, sizes, competing polynomials, orthonormal families of flows and numerical libraries", "why_tests_cant": "optimality against every other polynomial and on every basis of flows", "anchors": ["pytspl/filters/ls_filter_design.py:subcomponent_extraction_type_one", "pytspl/filters/base_filter.py:get_true_signal", "pytspl/simplicial_complex/simplicial_complex.py:get_component_flow"]}
{"id": "C160", "title": "Gaussian processes keep the Hodge components apart", "statement": "Under the prior of every model the gradient, curl and harmonic components of the flow are uncorrelated. The parameters named _down alone decide how gradient flows vary; in the kernels with Hodge components those named _up alone decide how curl flows vary, and h and mu how harmonic flows vary. A model trained on all edges predicts, on all edges, each Hodge component of the deviation from the mean from the same component of the data, without enlarging the deviation, and the components stay uncorrelated. After training on a single edge they stay uncorrelated exactly when the unit flow on that edge has only one component, so never on an edge of a filled triangle.", "quantifier": "all well-formed complexes, kernels, parameters, tolerances, noises, orders of the training edges, targets and numerical libraries", "why_tests_cant": "correlations of all pairs of flows under all parameters; tests look at single matrices", "anchors": ["pytspl/hogde_gp/forex/matern.py:MaternKernelForex", "pytspl/hogde_gp/forex/diffusion.py:DiffusionKernelForex", "pytspl/hogde_gp/forex/laplacian.py:LaplacianKernelForex", "pytspl/hogde_gp/exact_gp.py:ExactGPModel", "pytspl/hogde_gp/hodge_gp_trainer.py:predict"]}
{"id": "C161", "title": "The covariance matrices in closed form", "statement": "On a complex whose Hodge Laplacian L1 has no eigenvalue in (0, tolerance], the covariances of all pairs of edges are: exp(-kappa L1) for the diffusion kernel without Hodge components; (2 mu / kappa^2 + L1)^(-mu) for the Matern kernel without Hodge components; h_down exp(-kappa_down L1L) on gradient flows, h_up exp(-kappa_up L1U) on curl flows and h on harmonic flows for the diffusion kernel; kappa_down and kappa_up times generalised inverses of L1L and L1U, and 1000 mu on harmonic flows, for the Laplacian kernel.", "quantifier": "all well-formed complexes with that gap, parameters and numerical libraries", "why_tests_cant": "matrix functions of every Laplacian and every choice of eigenvectors", "anchors": ["pytspl/hogde_gp/forex/diffusion_non_hc.py:DiffusionNonHCKernelForex", "pytspl/hogde_gp/forex/matern_non_hc.py:MaternNonHCKernelForex", "pytspl/hogde_gp/forex/diffusion.py:DiffusionKernelForex", "pytspl/hogde_gp/forex/laplacian.py:LaplacianKernelForex"]}
{"id": "C162", "title": "Files become valid chain complexes, exactly when their links are consistently directed", "statement": "A csv or TNTP table of links between different nodes with non-negative node ids always builds with to_simplicial_complex(), into a complex on a simple graph that has a triangle for any three pairwise linked nodes. B1 @ B2 == 0 exactly when for any three such nodes the first rows linking them lead all from the smaller to the larger id or all from the larger to the smaller; this is the case if every row does so, or if the table holds both directions and is sorted by source. Whatever condition chooses the triangles, ascending edges give B1 @ B2 == 0. Every dataset that load_dataset returns with ascending edges satisfies B1 @ B2 == 0; the datasets read from incidence matrices never have self-loops or endpoints out of range.", "quantifier": "all tables of links, all conditions, columns and thresholds, all contents of all data files and all dataset names", "why_tests_cant": "tests load a few shipped files; whether the result is a chain complex depends on the order and direction of the rows of the file", "anchors": ["pytspl/io/network_reader.py:read_csv", "pytspl/io/network_reader.py:read_tntp", "pytspl/simplicial_complex/scbuilder.py:SCBuilder.to_simplicial_complex", "pytspl/io/dataset_loader.py:load_dataset"]}
{"id": "C163", "title": "The printed response error measures the filter", "statement": "The number printed as \"Error response\" by ChebyshevFilterDesign.apply is the distance of the filter from the ideal filter of the component, relative to the size of the ideal filter: it is 0 for the exact filter. This holds with p_choice L1, and with L1L when the complex has no triangles. With L1U on a complex with a triangle it is false: the gains are listed by the eigenvalues of the upper Laplacian and the ideal response by those of the Hodge Laplacian, so on the complete graph on four nodes with one filled triangle the printed error plus the recorded filter error is never below 1, even for a filter equal to the ideal one.", "quantifier": "every complex, flow, component, filter size, cut-off, steepness, Chebyshev routine, eigenvector routine and printed line", "why_tests_cant": "the value depends on how the eigenvalues of three Laplacians interleave and on the eigenvectors the library picks; a test on one complex sees one order", "anchors": ["pytspl/filters/chebyshev_filter_design.py:ChebyshevFilterDesign.apply", "pytspl/filters/base_filter.py:BaseFilter.calculate_error_NRMSE", "pytspl/filters/base_filter.py:BaseFilter.get_component_coefficients"]}
{"id": "C164", "title": "A larger polynomial filter still passes the component", "statement": "Once the filter size is large enough for the least-squares design to extract a component, every larger size extracts it too: asking for more coefficients than necessary never makes the estimate worse. In particular a flow that is already harmonic comes back (up to rounding) from the harmonic filter of every sufficient size.", "quantifier": "for every well-formed complex with no Hodge eigenvalue in (0, 0.001], every flow, every filter size, and every outcome the least-squares solver with its relative singular-value cut-off may return", "why_tests_cant": "the tests fit filters of a few fixed small sizes; the loss is exponential in the size and shows only above sizes the tests never use, and on every network rather than on special ones", "anchors": ["pytspl/filters/ls_filter_design.py:LSFilterDesign.subcomponent_extraction_type_one", "pytspl/filters/ls_filter_design.py:LSFilterDesign._apply_filter", "pytspl/filters/base_filter.py:BaseFilter"]}
{"id": "C165", "title": "How large the frequencies can be", "statement": "On a well-formed complex without repeated edges or triangles, the squared divergences and the squared curls of a flow add up to at most the number of nodes times the squared flow, with equality for all flows if every three nodes span a triangle. So every Hodge eigenvalue lies between 0 and the number of nodes. If no node has more than D edges and no edge is a side of more than M triangles, the eigenvalues of the graph and lower Laplacians are at most 2D, those of the upper Laplacian at most 3M, and the Hodge eigenvalues at most the larger of the two. The Hodge eigenvalues add up to 2E + 3T, so the largest is at least 2 + 3T/E.", "quantifier": "every well-formed complex on a simple graph, every flow, every eigenvalue", "why_tests_cant": "a statement about all networks and all flows; the tests look at a handful of spectra", "anchors": ["pytspl/simplicial_complex/simplicial_complex.py:SimplicialComplex.hodge_laplacian_matrix", "pytspl/simplicial_complex/simplicial_complex.py:SimplicialComplex.lower_laplacian_matrix", "pytspl/simplicial_complex/simplicial_complex.py:SimplicialComplex.upper_laplacian_matrix", "pytspl/simplicial_complex/simplicial_complex.py:SimplicialComplex.get_divergence", "pytspl/simplicial_complex/simplicial_complex.py:SimplicialComplex.get_curl", "pytspl/decomposition/eigendecomposition.py:get_eigendecomposition"]}
{"id": "C166", "title": "Grid-based denoising converges to the edge-flow denoising", "statement": "GridBasedFilterDesign.denoise and EdgeFlowDenoising.denoise with the same matrix, flow and mu > 0 both return, and their estimates differ by at most (4 sqrt(E) + 6) * (a / (1 + 2/sqrt(mu*lam)))^L of the norm of the flow, where E is the number of edges, L the filter size with 4 (L-1)^2 < E, lam > 0 the estimated largest eigenvalue at which the frequency grid ends, and a = (sqrt(eps) + sqrt(1+eps))^2 if the spectrum ends at (1+eps)*lam at most (a = 1 if the grid covers it). So the grid-based filter approaches the exact denoising geometrically as its size grows, although its response is fitted at the grid only and not at the eigenvalues. In subcomponent_extraction with more than 4 (L-1)^2 samples, a polynomial filter of the same size within tau of the logistic function at the samples gives an estimate that differs by at most 2 (sqrt(samples)+1) tau T_{L-1}(1+2 eps) of the norm of the flow.", "quantifier": "every complex with at least two edges, Laplacian choice, flow, mu > 0, admissible size, sample count and state of the filter object", "why_tests_cant": "a test compares the two methods on some flows and sizes; that the fit cannot oscillate between the samples is a statement about all polynomials of the size and all spectra", "anchors": ["pytspl/filters/grid_based_filter_design.py:GridBasedFilterDesign.denoise", "pytspl/filters/grid_based_filter_design.py:GridBasedFilterDesign._sample_grid_points", "pytspl/filters/grid_based_filter_design.py:GridBasedFilterDesign._apply_filter", "pytspl/filters/grid_based_filter_design.py:GridBasedFilterDesign.subcomponent_extraction", "pytspl/filters/edge_flow_denoising.py:EdgeFlowDenoising.denoise"]}
{"id": "C167", "title": "Grid-based denoising keeps smooth flows at every size", "statement": "A flow which the chosen Laplacian maps to zero carries no energy that denoising penalises: EdgeFlowDenoising.denoise returns it unchanged, and so, up to the accuracy of the solver, does GridBasedFilterDesign.denoise with numpy's lstsq and its default cut-off, whatever the filter size; a larger filter is never worse.", "quantifier": "every complex, Laplacian choice, flow in its kernel, mu >= 0 and filter size", "why_tests_cant": "tests run small sizes only; the loss sets in with the powers of the largest frequency and has to be excluded (or shown) for every size and complex", "anchors": ["pytspl/filters/grid_based_filter_design.py:GridBasedFilterDesign.denoise", "pytspl/filters/grid_based_filter_design.py:GridBasedFilterDesign._apply_filter", "pytspl/filters/edge_flow_denoising.py:EdgeFlowDenoising.denoise"]}
{"id": "C168", "title": "Gaussian process regression on all edges is edge-flow denoising", "statement": "Give a Gaussian process model with the Matern kernel without Hodge decomposition and `mu_down = 1` the observed flow of every edge, in any order, and ask for the prediction on all edges. With output scale s, noise n, `kappa_down` k and constant mean c, the predicted mean is c plus s/(s + 2n/k^2) times the flow that `EdgeFlowDenoising.denoise` stores for the deviation from c with P = L1 and the parameter n/(s + 2n/k^2), and the predicted covariance is n times (the same factor times the filter stored by that call, plus the identity). Conversely for every denoising strength mu > 0 and every factor strictly between 0 and 1 there is a model with zero mean whose prediction is that factor times the flow denoised with mu.", "quantifier": "all complexes with at least one edge whose L1 has no non-zero eigenvalue below the tolerance, all observed flows, all orders of the training edges, all positive hyperparameters, all previous states of the filter object, all outcomes of the numerical library", "why_tests_cant": "Relates two modules for real-valued hyperparameters and flows on arbitrary complexes.", "anchors": ["pytspl/hogde_gp/hodge_gp_trainer.py:HodgeGPTrainer.predict", "pytspl/hogde_gp/forex/matern_non_hc.py:MaternNonHCKernelForex", "pytspl/filters/edge_flow_denoising.py:EdgeFlowDenoising.denoise"]}
{"id": "C169", "title": "The noise of a Gaussian process model balances data and prior", "statement": "Let a model with noise n > 0 predict at its own training edges. If the prior variance of every combination of these edges lies between lo and hi times the sum of the squared weights, the predicted means miss the observations, in Euclidean norm, by at least n/(n + hi) and at most n/(n + lo) of the deviation of the observations from the prior mean; so a small noise reproduces the data and a large one returns the prior mean. For distinct edges of a simple graph with N nodes, output scale s and kernels without Hodge decomposition the bounds are explicit: hi = s (2 mu/kappa^2)^(-mu), lo = s (2 mu/kappa^2 + N)^(-mu) for Matern; hi = s, lo = s exp(-kappa N) for diffusion. Increasing the noise alone raises the variance of every prediction by at least the increase.", "quantifier": "all models from a complex, positive noises and hyperparameters, training and test edges, observations, numerical libraries; for the explicit bounds all well-formed complexes on simple graphs with the eigenvalue gap", "why_tests_cant": "Inequalities over real-valued hyperparameters, observations and complexes of every size.", "anchors": ["pytspl/hogde_gp/hodge_gp_trainer.py:HodgeGPTrainer.predict", "pytspl/hogde_gp/forex/matern_non_hc.py:MaternNonHCKernelForex", "pytspl/hogde_gp/forex/diffusion_non_hc.py:DiffusionNonHCKernelForex"]}
{"id": "C170", "title": "Closed walks, cuts and the gradient component", "statement": "On a simple graph a flow is its own gradient component, `get_component_flow(f, 'gradient', round_fig=False) == f`, exactly when its signed sum along every closed walk is zero, and its gradient component is zero exactly when, for every set of nodes, as much flows out of the set as into it. If every three nodes are the vertices of a triangle of the complex (as for exchange rates between all currencies), no flow has a harmonic component, and a flow is its own gradient component exactly when `get_curl` is zero on every triangle.", "quantifier": "all complexes on simple graphs, all flows, all closed walks and sets of nodes, all numerical libraries", "why_tests_cant": "Quantifies over all closed walks and all sets of nodes of every graph.", "anchors": ["pytspl/simplicial_complex/simplicial_complex.py:SimplicialComplex.get_component_flow", "pytspl/simplicial_complex/simplicial_complex.py:SimplicialComplex.get_curl", "pytspl/decomposition/hodge_decomposition.py:get_gradient_flow"]}
{"id": "C171", "title": "Denoising random noise helps on average, unless it is too strong", "statement": "Let a flow f be observed with random noise that has mean 0, variance v on every edge and no correlation between edges, and let `EdgeFlowDenoising.denoise` process the observations. The expected squared distance of the stored estimate from f is bias plus variance: the squared distance of the filtered f from f, plus v times the sum of the squared entries of the filter. It is strictly below that of the noisy flow whenever 0 < mu and mu * f.T P f <= 2 v (in particular for every mu > 0 if f.T P f = 0) and P is not zero; the same holds for the mean square of every recorded error, and for the flows stored by the l2 trend filter with mu * |div f|^2 <= 2 p^2, p the amplitude of the noise it adds. If the part of f that strong denoising removes has more energy than the noise on all edges, every sufficiently large mu makes the expected error worse than no denoising.", "quantifier": "all complexes with an edge, all flows, all probability spaces and noise distributions with these moments, all lists of parameters, all states of the filter object, all numerical libraries", "why_tests_cant": "Statement about expectations over every noise distribution; a test sees finitely many draws.", "anchors": ["pytspl/filters/edge_flow_denoising.py:EdgeFlowDenoising.denoise", "pytspl/filters/simplicial_trend_filter.py:SimplicialTrendFilter.denoising_l2_regularizer", "pytspl/filters/base_filter.py:BaseFilter.calculate_error_NRMSE"]}
{"id": "C172", "title": "snr_db is the signal-to-noise ratio of the flows the trend filters process", "statement": "For an entry dB of `snr_db`, the noisy flows that `denoising_l2_regularizer` and `denoising_l1_regularizer` process (and store unchanged for mu = 0) have the signal-to-noise ratio 10^(dB/10): energy of the flow divided by expected energy of the noise. (False: the noise power is used as amplitude and the norm of the flow as its power, so the ratio is E * 10^(2 dB/10); in decibel, twice the requested value plus 10 log10 of the number of edges.)", "quantifier": "all complexes with an edge, all non-zero flows, all dB values, all standard white noise distributions, all solvers", "why_tests_cant": "Expectation over the random draws, for all flows and sizes.", "anchors": ["pytspl/filters/simplicial_trend_filter.py:SimplicialTrendFilter.get_power_noise", "pytspl/filters/simplicial_trend_filter.py:SimplicialTrendFilter.denoising_l2_regularizer", "pytspl/filters/simplicial_trend_filter.py:SimplicialTrendFilter.denoising_l1_regularizer"]}
{"id": "C173", "title": "Noise spreads over the Hodge components by their dimensions", "statement": "If a flow f is observed with random noise of mean 0 and variance v on every edge, uncorrelated between edges, then each of the components returned by `get_component_flow(round_fig=False)` for the observations has the component of f as its mean, and its expected squared distance from it is v times the dimension of the component: number of nodes minus number of connected components for 'gradient', rank of B2 for 'curl', dimension of the kernel of L1 for 'harmonic'. In particular, for a gradient flow extraction reduces the expected squared error from v times the number of edges to v times (nodes minus connected components).", "quantifier": "all consistently oriented complexes, all flows, all noise distributions with these moments, all numerical libraries", "why_tests_cant": "Expectation over every noise distribution on complexes of every size.", "anchors": ["pytspl/simplicial_complex/simplicial_complex.py:SimplicialComplex.get_component_flow", "pytspl/decomposition/hodge_decomposition.py:get_gradient_flow", "pytspl/decomposition/hodge_decomposition.py:get_curl_flow", "pytspl/decomposition/hodge_decomposition.py:get_harmonic_flow"]}
{"id": "C174", "title": "Interpolation recovers a flow that the sampled edges determine", "statement": "If the flow given to `interpolation_l1_regularizer` has none of the penalised component (divergence or curl), and no other such flow has the same values on the sampled edges, the stored flow is the given flow; for the divergence this is the case exactly when the edges that were not sampled contain no cycle. (False for the default weight 0.5: on a triangle with a circulation, ratio 0.5 samples one edge, which determines the flow, but the other two edges get the value 0. What holds: for every complex, component and order there is a weight above which the stored flow is the shortest flow without the component that agrees with the samples, hence the given flow if they determine it. A flow that vanishes on the sampled edges is returned as zero for every weight.)", "quantifier": "all complexes, flows without the penalised component, components, orders, ratios, realisations, random samples and convex solvers", "why_tests_cant": "Whether a flow is recovered depends on the graph, on the random sample and on the weight; tests try one weight on one network.", "anchors": ["pytspl/filters/simplicial_trend_filter.py:SimplicialTrendFilter.interpolation_l1_regularizer", "pytspl/filters/simplicial_trend_filter.py:SimplicialTrendFilter.get_shift_operator"]}
{"id": "C175", "title": "Grid-based extraction removes the other components", "statement": "GridBasedFilterDesign.subcomponent_extraction removes every flow on which the chosen Laplacian is zero: extracting with L1L leaves nothing of a divergence-free flow, extracting with L1U leaves nothing of a curl-free one, and general_filter reports a harmonic flow as entirely harmonic.", "quantifier": "all complexes whose estimated largest eigenvalue is finite and non-zero, all flows, filter sizes at least the number of samples, all cut-offs and steepnesses", "why_tests_cant": "The tests compare the error of one extraction on one data set with a stored number; what fraction of a flow outside the component survives depends on the fitted polynomial at zero for every complex, size and response.", "anchors": ["pytspl/filters/grid_based_filter_design.py:GridBasedFilterDesign.subcomponent_extraction", "pytspl/filters/grid_based_filter_design.py:GridBasedFilterDesign.general_filter", "pytspl/filters/base_filter.py:BaseFilter.logistic_function"]}
{"id": "C176", "title": "The ideal filters do not depend on the eigensolver", "statement": "The ideal filter of a component, get_ideal_frequency(get_component_coefficients(component)), against which the Chebyshev filter is measured, is determined by the complex: every eigensolver that meets its contract gives the same matrix.", "quantifier": "all pairs of correct eigensolvers (which may return any orthonormal basis of each eigenspace), all consistently oriented complexes with no Hodge eigenvalue in (0, 1e-3], all three components", "why_tests_cant": "A test runs one eigensolver; the claim compares all of them, and fails exactly on degenerate spectra, where one library on one machine always gives one answer.", "anchors": ["pytspl/filters/chebyshev_filter_design.py:ChebyshevFilterDesign.get_ideal_frequency", "pytspl/filters/base_filter.py:BaseFilter.get_component_coefficients"]}
{"id": "C177", "title": "The recorded responses tell how much noise a designed filter passes", "statement": "Let a least-squares design (type one or two) or a grid-based design (denoise or subcomponent_extraction) succeed on a flow. With white noise of variance v added to the flow the same call succeeds as well and records the same frequency responses. The expected squared distance of its estimate to any reference flow is the squared distance of the estimate without noise, plus v times the sum of the squares of the last recorded frequency responses. For an exact type-two gradient extraction that sum is the number of nodes minus the number of connected components.", "quantifier": "for every complex, flow, component, filter size, threshold, cut-off, steepness, regularisation, white noise of any distribution, reference flow and conforming numpy", "why_tests_cant": "The claim is about an expectation over all noise realisations, for every complex and every parameter; a test sees finitely many samples and can only estimate the mean.", "anchors": ["pytspl/filters/ls_filter_design.py:LSFilterDesign.subcomponent_extraction_type_one", "pytspl/filters/ls_filter_design.py:LSFilterDesign.subcomponent_extraction_type_two", "pytspl/filters/grid_based_filter_design.py:GridBasedFilterDesign.denoise", "pytspl/filters/grid_based_filter_design.py:GridBasedFilterDesign.subcomponent_extraction"]}
{"id": "C178", "title": "The variances of predict are honest for data that follow the model", "statement": "Draw the training and test values at random with the means and covariances the model assumes (prior of the kernel, plus the noise on every value). Then the predictions of predict are unbiased, and the covariance matrix it returns, which is the same for all draws, is the covariance matrix of the differences between test values and predictions. So the average over the draws of the printed mean squared error is the mean of the returned variances, the average of the printed log loss is the mean of log(2 pi e variance)/2, and the average of the printed negative log predictive density is that of the returned normal distribution, (log det + n log(2 pi e))/(2n).", "quantifier": "for every complex, kernel, trained or untrained model with positive noise, training edges, test edges (two or more for the metrics), and every probability distribution of the data with these first and second moments, normal or not", "why_tests_cant": "Calibration is a statement about the average over all data sets; a test evaluates single data sets, on which the printed numbers differ from the average.", "anchors": ["pytspl/hogde_gp/hodge_gp_trainer.py:HodgeGPTrainer.predict", "pytspl/hogde_gp/exact_gp.py:ExactGPModel.forward"]}
{"id": "C179", "title": "On complete networks the Hodge-Laplacian filters only rescale", "statement": "On a network of N nodes in which every pair of nodes is joined and every triangle is listed, all Hodge frequencies equal N. There, for every flow f: LSFilterDesign.subcomponent_extraction_type_one returns 2/N of f as the gradient component, 1-2/N of f as the curl component and zero as the harmonic one, for every filter size L >= 1 (so it does not separate the components); EdgeFlowDenoising.denoise with p_choice L1 divides f by 1+mu*N; the grid-based designs with p_choice L1 return a multiple of f; and Gaussian-process regression with a kernel without Hodge components predicts at unmeasured edges exactly what it predicts from no measurements at all.", "quantifier": "every complete simplicial complex of any number of nodes with at least one edge, flow, filter size, denoising parameter, initial state of the filter object, training and test sets, hyperparameters and eigensolver meeting the contract", "why_tests_cant": "Tests use one small network that is not complete, and look at one filter size; the claim is about all sizes of network and filter and all flows", "anchors": ["pytspl/filters/ls_filter_design.py:LSFilterDesign.subcomponent_extraction_type_one", "pytspl/filters/edge_flow_denoising.py:EdgeFlowDenoising.denoise", "pytspl/filters/grid_based_filter_design.py:GridBasedFilterDesign.denoise", "pytspl/hogde_gp/forex/diffusion_non_hc.py", "pytspl/hogde_gp/forex/matern_non_hc.py"]}
{"id": "C180", "title": "Type-one filters split a shared frequency by multiplicity", "statement": "On a consistently oriented complex with no Hodge eigenvalue in (0, 1e-3], subcomponent_extraction_type_one with L at least the number of distinct Hodge frequencies stores a filter that multiplies every flow of frequency lam != 0 by one number: for 'gradient' the multiplicity of lam in the lower Laplacian divided by its multiplicity in the Hodge Laplacian, for 'curl' the same with the upper Laplacian. The two numbers add up to 1. At a frequency shared by gradient and curl flows both lie strictly between 0 and 1, so each flow of that frequency appears in both extracted components, in the same proportion whether it is a gradient or a curl flow.", "quantifier": "all such complexes, flows, filter sizes, states of the filter object, and eigensolvers and sort routines meeting the contract (ties broken arbitrarily)", "why_tests_cant": "The outcome must not depend on how the eigensolver and argsort order equal frequencies, for every complex; a test sees one ordering on one complex", "anchors": ["pytspl/filters/ls_filter_design.py:LSFilterDesign.subcomponent_extraction_type_one", "pytspl/filters/base_filter.py:BaseFilter.get_component_coefficients"]}
{"id": "C181", "title": "Rings: the harmonic component is the circulation, and the default tolerance finds it up to 198 edges", "statement": "On a ring of n edges without triangles, in any orientation of the edges, the harmonic component of a flow is its mean circulation sent around the ring, the gradient component is the rest, and the curl component is zero. The Hodge frequencies are exactly the numbers 2 - 2 cos(2 pi k / n) for k < n. get_component_eigenpair('harmonic') with the default tolerance returns exactly one eigenvector, a multiple of the circulation, when n <= 198; when n >= 199 it returns at least two, and one of them has non-zero divergence.", "quantifier": "all rings with n >= 2 edges, all edge orientations, all flows, all eigensolvers and least-squares solvers meeting the contract", "why_tests_cant": "The spectrum and the components are claimed for every ring size; tests run small rings, on which the default tolerance is right, and the failure begins at 199 edges", "anchors": ["pytspl/simplicial_complex/simplicial_complex.py:SimplicialComplex.get_component_eigenpair", "pytspl/decomposition/eigendecomposition.py:get_harmonic_eigenpair", "pytspl/decomposition/hodge_decomposition.py:get_harmonic_flow"]}
{"id": "C182", "title": "Chains: every flow is a gradient, and the default tolerance agrees up to 98 edges", "statement": "On a chain of n edges, in any orientation of the edges, every flow is its own gradient component and the other two components are zero. The Hodge frequencies are exactly the numbers 2 - 2 cos(pi k / (n+1)) for 1 <= k <= n. get_component_eigenpair('harmonic') with the default tolerance returns no eigenvector when n <= 98; when n >= 99 it returns at least one, and every one of them has non-zero divergence.", "quantifier": "all chains with n >= 1 edges, all edge orientations, all flows, all eigensolvers and least-squares solvers meeting the contract", "why_tests_cant": "The spectrum is claimed for every length; tests run short chains, on which the default tolerance is right, and the failure begins at 99 edges", "anchors": ["pytspl/simplicial_complex/simplicial_complex.py:SimplicialComplex.get_component_eigenpair", "pytspl/decomposition/eigendecomposition.py:get_harmonic_eigenpair", "pytspl/decomposition/hodge_decomposition.py:get_gradient_flow"]}
{"id": "C183", "title": "Type-one filters take all frequencies up to 1e-3 for harmonic", "statement": "On every consistently oriented complex whose non-zero Hodge frequencies exceed machine precision, subcomponent_extraction_type_one with L at least the number of distinct frequencies stores, for 'harmonic', a filter that keeps every flow of a frequency up to 1e-3 unchanged and removes every flow of a larger frequency. For 'gradient' and 'curl' it removes every flow of a frequency up to 1e-3 and multiplies those of a larger frequency by the share of the component in the multiplicity. Hence on a chain with 99 to a million edges there is a non-zero gradient flow that is returned unchanged as the harmonic component and of which nothing is returned as the gradient component.", "quantifier": "all such complexes, flows, filter sizes and states of the filter object, all eigensolvers and sort routines meeting the contract; all such chains in every orientation", "why_tests_cant": "The failure begins at networks larger than the ones tests use, and the filter is characterised on all flows of all complexes", "anchors": ["pytspl/filters/ls_filter_design.py:LSFilterDesign.subcomponent_extraction_type_one", "pytspl/filters/base_filter.py:BaseFilter.get_component_coefficients", "pytspl/simplicial_complex/simplicial_complex.py:SimplicialComplex.get_component_eigenpair"]}
{"id": "C184", "title": "Rings: n/2+1 coefficients extract the gradient component, fewer do not", "statement": "On a ring of n <= 4000 edges, in any orientation, subcomponent_extraction_type_two('gradient') with the default tolerance and L >= n/2+1 (integer division) returns exactly the gradient component, which is the flow minus its mean circulation, and records a final error of 0. On a ring of any size and with any tolerance, L <= n/2 does not return the gradient component of a flow that is 1 on one edge and 0 on the others.", "quantifier": "all rings, edge orientations, flows, edges, filter sizes, states of the filter object, and numerical libraries meeting the contract", "why_tests_cant": "Exactness is claimed for every flow, and the necessary number of coefficients for every ring size", "anchors": ["pytspl/filters/ls_filter_design.py:LSFilterDesign.subcomponent_extraction_type_two"]}
{"id": "C185", "title": "The default tolerance is right up to 99 nodes, and no further", "statement": "On every network of N nodes each non-zero frequency of the lower Laplacian is at least 2 - 2 cos(pi/N), the smallest one of the chain of N nodes. Hence on every network of at most 99 nodes without filled triangles get_component_eigenpair('harmonic') with the default tolerance returns an orthonormal basis of exactly the flows without divergence and curl; the same holds with T filled triangles of crossing depth at most k when T k^2 < 1000. The number 99 is the best possible: on a network of 100 nodes the returned eigenvectors have non-zero divergence.", "quantifier": "all networks of at most 99 nodes, connected or not, with any edges and orientations, and all eigensolvers meeting the contract", "why_tests_cant": "There are more networks of 99 nodes than can be run, and that the chain is the worst of them is a statement about all of them", "anchors": ["pytspl/simplicial_complex/simplicial_complex.py:SimplicialComplex.get_component_eigenpair", "pytspl/decomposition/eigendecomposition.py:get_harmonic_eigenpair"]}
{"id": "C186", "title": "Sharp accuracy of inexact solvers", "statement": "Whatever potential the least-squares solver returns, the squared distance of the gradient flow computed from it to the gradient component is at most the squared divergence of the remainder divided by 2 - 2 cos(pi/N), and on the chain of N nodes this is attained for every flow by some potential. On every network of at most 98 nodes without filled triangles, an eigensolver with an error of up to 1e-5 gives with the default tolerance exactly as many harmonic, curl and gradient eigenvectors as the spaces have dimensions, and the embeddings computed with it, put back on the eigenvectors, are within 2 percent of the length of the flow of its gradient and harmonic component.", "quantifier": "all consistently oriented complexes, flows and returned potentials; all chains; all networks of at most 98 nodes without filled triangles and all eigensolvers with that error", "why_tests_cant": "The error bounds hold for every wrong answer a solver can give, and the constant is the best for all networks of a size", "anchors": ["pytspl/decomposition/hodge_decomposition.py:get_gradient_flow", "pytspl/simplicial_complex/simplicial_complex.py:SimplicialComplex.get_component_eigenpair", "pytspl/simplicial_complex/simplicial_complex.py:SimplicialComplex.get_simplicial_embeddings"]}
{"id": "C187", "title": "How much of the gradient component denoising removes", "statement": "On every network of N nodes EdgeFlowDenoising.denoise with p_choice 'L1L' and mu >= 0 leaves the flow without its gradient component unchanged, and leaves of the gradient component, in length, at most 1/(1 + mu (2 - 2 cos(pi/N))) and at least 1/(1 + mu N). On the chain of N nodes the first bound is attained: there is a flow, which is its own gradient component, of which exactly this fraction is returned.", "quantifier": "all consistently oriented complexes with an edge (without repeated edges and triangles for the lower bound), all flows, reference flows, states of the filter object, lists of parameters, and numerical libraries meeting the contract; all chains", "why_tests_cant": "The bounds hold for all networks of a given number of nodes and all flows", "anchors": ["pytspl/filters/edge_flow_denoising.py:EdgeFlowDenoising.denoise"]}
{"id": "C188", "title": "As many filter coefficients as nodes are enough", "statement": "On a network of N nodes the lower Laplacian has at most N distinct eigenvalues. On every network of at most 2000 nodes that carries a non-zero flow without divergence, subcomponent_extraction_type_two('gradient') with the default tolerance and L >= N returns exactly the gradient component; without such a flow (the network is a forest) there is a non-zero flow which is its own gradient component and of which it returns nothing. On every network of at most 99 nodes without filled triangles subcomponent_extraction_type_one with L >= N returns exactly the harmonic, gradient and (zero) curl component.", "quantifier": "all such networks, flows, filter sizes, states of the filter object and numerical libraries meeting the contract", "why_tests_cant": "Exactness is claimed for every flow on every network of these sizes", "anchors": ["pytspl/filters/ls_filter_design.py:LSFilterDesign.subcomponent_extraction_type_one", "pytspl/filters/ls_filter_design.py:LSFilterDesign.subcomponent_extraction_type_two"]}
{"id": "C189", "title": "How much divergence the l2 trend filter removes", "statement": "On every network of N nodes each flow stored by a successful call of denoising_l2_regularizer with weight mu >= 0 has, for either component, a divergence whose norm is at most 1/(1 + mu (2 - 2 cos(pi/N))) and at least 1/(1 + mu N) of the norm of the divergence of the noisy flow.", "quantifier": "all consistently oriented complexes with an edge (without repeated edges and triangles for the lower bound), all flows, noise, weights, noise levels, realisations and earlier histories", "why_tests_cant": "The bounds hold for all networks of a given number of nodes, all flows and all noise", "anchors": ["pytspl/filters/simplicial_trend_filter.py:SimplicialTrendFilter.denoising_l2_regularizer"]}
{"id": "C190", "title": "Which weight of the l1 trend filter removes the whole gradient component", "statement": "Order 0, component \"divergence\": if any two connected nodes are at most D edges apart and the weight mu is more than sqrt(D)/2 (on any network of N nodes: more than sqrt(N-1)/2), every stored flow is the noisy flow minus its gradient component, whichever minimiser the convex solver picks. This number is the best possible: on the chain of N nodes, with any weight below sqrt(N-1)/2, there is a flow for which the stored flow still has a gradient component; the default weight 0.5 is below it from three nodes on.", "quantifier": "all complexes with edges, flows, weights above the bound, noise, settings and realisations, all correct solvers; for the converse all chains and all weights below the bound", "why_tests_cant": "an explicit threshold that holds uniformly in all networks, flows, noises and solvers, and its optimality for every number of nodes", "anchors": ["pytspl/filters/simplicial_trend_filter.py:SimplicialTrendFilter.denoising_l1_regularizer", "pytspl/filters/simplicial_trend_filter.py:SimplicialTrendFilter.get_shift_operator"]}
{"id": "C191", "title": "Which weight of the l1 trend filter removes the whole curl component", "statement": "Order 0, component \"curl\", on a simple graph: if every triangle is at most k steps (across edges of just two triangles) away from an edge of a single triangle and the weight mu is more than k, every stored flow is the noisy flow minus its curl component, whichever minimiser the convex solver picks. If no two triangles share an edge, mu > 1/sqrt(3) is enough, and on each such complex with a triangle no smaller number would do: with mu < 1/sqrt(3), in particular with the default 0.5, the flow of one unit around a triangle is stored with a curl component left.", "quantifier": "all complexes on simple graphs with edges, flows, weights, noise, settings and realisations, all correct solvers", "why_tests_cant": "explicit thresholds that hold uniformly in all complexes, flows, noises and solvers, and the optimality of one of them on every complex of its kind", "anchors": ["pytspl/filters/simplicial_trend_filter.py:SimplicialTrendFilter.denoising_l1_regularizer", "pytspl/filters/simplicial_trend_filter.py:SimplicialTrendFilter.get_shift_operator"]}
{"id": "C192", "title": "The weight below which the l1 trend filter changes nothing is the best possible on every bipartite network", "statement": "Order 0, component \"divergence\": C134 says a weight mu < 1/(2 sqrt(E)) leaves every noisy flow as it is. On every bipartite network of E edges no larger number would do: with mu > 1/(2 sqrt(E)), in particular with the default 0.5 from two edges on, the flow of one unit over each edge from one side of the network to the other is stored altered, whichever minimiser the convex solver picks.", "quantifier": "all bipartite networks, all weights above the bound, all correct solvers, noise zero", "why_tests_cant": "optimality of a threshold on every bipartite network, for every weight above it and every solver", "anchors": ["pytspl/filters/simplicial_trend_filter.py:SimplicialTrendFilter.denoising_l1_regularizer"]}
{"id": "C193", "title": "Which weight of the interpolation recovers a flow without divergence", "statement": "interpolation_l1_regularizer, order 0, component \"divergence\", for a flow without divergence: if the K edges that were not sampled contain no cycle and the weight mu is more than sqrt(K)/2, the stored flow is the given flow, whichever minimiser the convex solver picks. It is not if 2 mu times the sum of the absolute values on the sampled edges is less than the length of the flow on the others. On a ring the flow around it is recovered from any sample of at least one edge if mu > sqrt(K)/2, and from one edge no smaller number would do.", "quantifier": "all complexes on simple graphs with up to 2^53 edges, flows without divergence, samplers, ratios between 0 and 1, realisations, weights, all correct solvers", "why_tests_cant": "an explicit threshold uniform in networks, samples and solvers, and its optimality on rings of every size", "anchors": ["pytspl/filters/simplicial_trend_filter.py:SimplicialTrendFilter.interpolation_l1_regularizer", "pytspl/filters/simplicial_trend_filter.py:SimplicialTrendFilter.get_shift_operator"]}
{"id": "C194", "title": "Splits with the same seed are nested", "statement": "Two calls of train_test_split with the same seed on trainers whose complexes have the same number of edges: the smaller training set is contained in the larger one (it is its end) and the smaller test set in the larger one (its beginning), whatever the complexes, the targets, the kind of train_ratio (float or int) and the normalisation. With the same number of training items the sets are the same, so models trained with the same seed are compared on the same edges.", "quantifier": "all pairs of trainers with equally many edges, all train sizes, seeds and permutations of the seed", "why_tests_cant": "all pairs of calls, targets and permutations", "anchors": ["pytspl/hogde_gp/hodge_gp_trainer.py:HodgeGPTrainer.train_test_split"]}
{"id": "C195", "title": "A larger share of training data never makes predictions less certain", "statement": "Split the edges twice with train_test_split and the same seed, with two training sizes, and condition a model with given kernel, scale and noise on the one and on the other training set. At any edges the prediction from the larger set has at most the variance of the prediction from the smaller set, for each value and for every weighted sum of values (such as the net flow at a node), whatever the targets and whether they are normalised. The test edges of the larger training set are test edges of the smaller one, so the two can be compared on them.", "quantifier": "all complexes, kernels built from them, parameters with positive noise, seeds and permutations, pairs of sizes, targets, sets of predicted edges and weights", "why_tests_cant": "all models, splits, targets and weighted sums", "anchors": ["pytspl/hogde_gp/hodge_gp_trainer.py:HodgeGPTrainer.train_test_split", "pytspl/hogde_gp/hodge_gp_trainer.py:HodgeGPTrainer.predict", "pytspl/hogde_gp/exact_gp.py:ExactGPModel.forward"]}
