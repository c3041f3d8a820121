{
 "C03": "Holds whenever triangles are stored consistently oriented (ascending edges). C03_counterexample shows the constructor accepts complexes where B1 B2 is not zero, and shipped datasets are among them.",
 "C14": "Proved for steps 1 and 2. For any other value the code applies two steps (C14_steps_ge_three), so the claim fails for k >= 3 (C14_counterexample).",
 "C31": "The claim is false for complexes with a Hodge eigenvalue in (0, 1e-3]: C31_default_tolerance_fails proves it for every path with at least 2000 edges. C31_harmonic_space_partial proves it for all other consistently oriented complexes with an edge. C185 shows that without filled triangles the condition holds for every network of up to 99 nodes, and fails for one with 100.",
 "C32": "The method raises AssertionError on every complex (C32_method_always_raises). C32_total_variance_partial proves the claim for the free function on dense Laplacians.",
 "C57": "False when both sizes are positive: history['L1'] and history['L2'] are the same dictionary (C57_aliasing), and C57_counterexample shows on a filled triangle that history['L1'] is not the gradient design whenever the sizes differ. C57_single_design_partial proves the claim when at most one size is positive.",
 "C63": "False for L >= 2: the i-th stored filter uses min(i+2, L) coefficients (C63_index), and C63_counterexample gives a complex where the first one differs from the approximation with one coefficient. C63_last_partial proves the claim for the last stored filter.",
 "C39": "The property is false for unsorted tables (C39_counterexample). Proved when the rows introducing an edge come first in sorted order, and C39_converse shows that condition is necessary as soon as one feature column tells the rows apart. Missing: nothing true; the full statement is refuted.",
 "C67": "False as stated for component='curl' (C67_counterexample, C67_curl_untouched: the curl of the noisy flow is left as it is). Proved for the divergence, together with the exact filter, the failure cases and the independence of the component.",
 "C76": "False for 'laplacian_non_hc', which is an advertised kernel name and raises KeyError (C76_counterexample). Proved for every other pair of strings.",
 "C80": "False as stated: before training AttributeError is raised instead of ValueError, because the attribute is never initialised (C80_before_training_partial). The rest of the call-order behaviour is proved.",
 "C84": "False for the undocumented keyword edge_labels, which passes validation and then raises TypeError when labels are drawn (C84_counterexample). Proved for every other keyword, and the routing of all documented keywords is proved (C84_routes).",
 "C94": "False: node labels go to pyplot's current axes (C94_counterexample). Everything else goes to the given axes (C94_axes_partial), and everything does when the given axes are current or labels are off (C94_axes_current).",
 "C95": "False for cmap, which only reaches the colour bar and never the nodes (C95_counterexample). Proved for every other documented style keyword.",
 "C100": "Proved for divergence, node Laplacian and the gradient component for any set of reversed edges, and for everything when the reversed edges bound no triangle. C100_curl_counterexample shows the curl part is false of the code.",
 "C98": "rank and components for every complex on valid edges; Euler formula and eigenvector counts for consistently oriented complexes (C03 explains why that is needed).",
 "C102": "Mean absolute and squared error are proved; the reported R2 uses the spread of the predictions, not of the data (C102_r2_counterexample). The likelihood metrics are C116.",
 "C101": "Exact Gaussian conditioning (gpytorch's documented formulas without its fast approximation), for every kernel the serializer can build.",
 "C103": "Proved for every program that does not change the lists after the complex is created; C103_counterexample shows the rest is false.",
 "C104": "False because of shared default arguments and references (C104_counterexample); who shares what is exact in C104_shared, C104_build_references and C104_constructor_references.",
 "C111": "Doubles are described by structure Rounding (no overflow); rounding to 53 digits is proved to satisfy it.",
 "C112": "Same description of doubles as C111; curl stated for the stored edge positions as in C16.",
 "C113": "Same description of doubles as C111.",
 "C114": "Arrays of three or more dimensions are not modelled.",
 "C115": "Users would expect a reference of the wrong shape to be rejected; C115_column_counterexample shows it is not (DESIGN.md section 6).",
 "C116": "gpytorch's metrics are modelled by their documented formulas in exact arithmetic.",
 "C117": "Programs that change the default arguments are the subject of C104_counterexample.",
 "C120": "The rounding is any function that fixes whole numbers up to 2^24; printing and device placement are not modelled.",
 "C122": "The computed flows are B1.T @ p and B2 @ w for arbitrary p, w, in exact arithmetic.",
 "C123": "Rounding errors of LAPACK are not modelled; C122 bounds the effect of any inaccuracy of the solution.",
 "C126": "The colour map of the nodes is not the one of the colour bar: see C95.",
 "C129": "The arrays that really depend on the chosen basis (eigenvectors, embeddings themselves, Chebyshev frequency responses and filter errors) are not part of the claim; NumLib.flip_ne shows that correct libraries do differ there.",
 "C133": "The full claim is false: C133_counterexample gives two correct solvers with different answers. C133_direction_partial proves that all answers have the same objective and deviate from the noisy flow in the same direction.",
 "C135": "The l2 part and the shift operators are complete. For the l1 filter equality is false (C133_counterexample), C135_l1_partial proves equal objectives and equal directions.",
 "C141": "The full claim is false: C141_after_predict proves that the first loss after predict is always too small. C141_loss_partial is the claim for a model in training mode, in which every model starts and to which model.train() returns (C141_reset).",
 "C145": "C145_parameters and C145_untrained are about arbitrary programs from the empty heap; C145_reading, C145_predict_noise, C145_other_likelihood, C145_loss, C145_own_likelihood and C145_own_predict are about one call in an arbitrary heap.",
 "C146": "Partial because the unconditional claim is false (C146_counterexample): two models on one kernel object, training the first changes what the trainer of the second reports.",
 "C147": "The full claim fails (C147_counterexample): the weights that decide about the triangles are drawn from Python's unseeded generator. C147_graph_partial, C147_triangles_partial, C147_seeded and C147_state are what holds.",
 "C152": "False in full: C152_counterexample (path with two edges: estimate 1, eigenvalue 3, series evaluated at 5, grid stops at 1). Proved: the estimate is within an explicit distance of the largest eigenvalue whose eigenspace meets the all-ones flow. Missing: that this is the largest eigenvalue of the matrix.",
 "C157": "The full statement is false (C157_sizes, C157_counterexample): the printed filter sizes are too small, the SNR is a ratio labelled dB, and the l2 filter's noisy error is divided by the number of settings from this one on. Proved: every line carries the recorded errors and correlations of its setting; the edge-flow and interpolation lines are right in full; lines stay when a later mu fails.",
 "C163": "The full statement is false (C163_counterexample, C163_exact_filter): with the upper Laplacian the gains and the ideal response are listed in different orders. Proved: with the Hodge Laplacian, or with the lower one and no triangles, the printed number is the relative Frobenius distance from the ideal filter.",
 "C164": "False in full: with numpy's default rcond the harmonic filter of any size from 64 on loses 99.9% of every harmonic flow, on every complex (C164_counterexample, C164_harmonic_lost, C164_gain). Proved: the explicit error bound for moderate sizes.",
 "C167": "False in full (C167_counterexample). Proved instead: a bound of the distance to edge-flow denoising with the cut-off included, useful while the powers of the estimate are moderate.",
 "C172": "The full claim is false (C172_counterexample): with at least two edges and dB >= 0 the flows are less noisy than requested by at least the factor E. C172_ratio_partial gives the actual ratio for both denoising functions and says exactly when it is the requested one.",
 "C174": "The property is false for the default weight (C174_counterexample); proved for every weight above a threshold that depends on the complex, component and order only (C174_recovery_partial), with the graph-theoretic condition (C174_forest) and the flows no weight recovers (C174_blind).",
 "C175": "False as stated: the logistic response at frequency zero is 1/(1+exp(steep*cut_off)), which is 1/(1+e), about 0.27, with the defaults, and a filter with as many coefficients as samples reproduces it exactly. C175_counterexample exhibits a harmonic flow returned with non-zero gradient and curl components and less than half of its harmonic one. C175_leak_partial proves the exact factor and that it is at most exp(-steep*cut_off).",
 "C176": "False as stated: where a gradient and a curl flow share a non-zero frequency (already on a filled triangle) the mask selects some of the eigenvectors of that eigenspace, and which flows these are is up to the eigensolver; C176_shared exhibits a gradient flow that the ideal gradient filter keeps with one correct library and removes with another. C176_ideal_partial proves the claim for the harmonic filter always and for the others when no frequency is shared."
}