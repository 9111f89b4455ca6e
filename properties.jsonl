{"id": "C01", "title": "Mode selection round-trips", "statement": "After any sequence of assignments to modes_activation_bitmask, setting it back to all-True makes modes, eigs and amplitudes equal to what they were right after fit, provided nothing was edited in place in between.", "quantifier": "every number of modes, every content of modes/eigs/amplitudes, every finite history of mask assignments", "why_tests_cant": "the number of mask histories is unbounded; a test fixes one or two masks", "anchors": ["pydmd/dmdbase.py:ActivationBitmaskProxy.change_bitmask", "pydmd/dmdbase.py:DMDBase.modes_activation_bitmask"]}
{"id": "C02", "title": "In-place edits survive mask changes", "statement": "Writing into dmd.modes / dmd.eigs / dmd.amplitudes while some modes are active changes exactly the active modes; whatever masks are set later, whenever a mode is active again its values are the last ones written while it was active, and inactive modes are never touched.", "quantifier": "every finite interleaving of mask assignments and in-place edits", "why_tests_cant": "the property is about arbitrary histories of edits and mask changes", "anchors": ["pydmd/dmdbase.py:ActivationBitmaskProxy"]}
{"id": "C03", "title": "Active modes, eigenvalues and amplitudes stay aligned", "statement": "At any time the visible modes, eigs and amplitudes are the restriction of the full triples to the active indexes in increasing order: the k-th mode, eigenvalue and amplitude belong to the same original mode and their number is the number of True entries of the mask.", "quantifier": "every reachable state of the mask machinery", "why_tests_cant": "alignment must hold after every history, not only after the ones exercised", "anchors": ["pydmd/dmdbase.py:ActivationBitmaskProxy", "pydmd/dmdbase.py:DMDBase.modes", "pydmd/dmdbase.py:DMDBase.eigs", "pydmd/dmdbase.py:DMDBase.amplitudes"]}
{"id": "C04", "title": "Invalid mask assignments are rejected without effect", "statement": "Assigning modes_activation_bitmask raises RuntimeError before fit or when the value is not boolean, ValueError when its shape is not (number of modes,), and succeeds otherwise; a rejected assignment leaves modes, eigs, amplitudes and the mask unchanged.", "quantifier": "every state of the object and every assigned value", "why_tests_cant": "needs the error branch for all values and that state is untouched on every one of them", "anchors": ["pydmd/dmdbase.py:DMDBase.modes_activation_bitmask"]}
{"id": "C05", "title": "dmd[key] selects exactly the requested modes", "statement": "dmd[key] returns an instance whose active modes are exactly those whose index is designated by the int / slice / list key (Python index conventions), the original keeps its own mask; repeated indexes and other key types raise ValueError, out-of-range indexes IndexError.", "quantifier": "every number of modes, every key (slices with any start/stop/step, lists of any length), every current mask", "why_tests_cant": "key space is infinite and Python slicing has many boundary cases", "anchors": ["pydmd/dmdbase.py:DMDBase.__getitem__"]}
{"id": "C06", "title": "Time dictionaries only ever hold t0, tend, dt", "statement": "Item assignment on original_time / dmd_time accepts exactly the keys t0, tend and dt (KeyError otherwise, leaving the dictionary unchanged); the dictionaries created by fit hold exactly these three keys, and a dictionary with missing or extra keys is rejected with ValueError.", "quantifier": "every dictionary and every finite sequence of item assignments", "why_tests_cant": "invariant over arbitrary assignment histories", "anchors": ["pydmd/dmdbase.py:DMDTimeDict", "pydmd/dmdbase.py:DMDBase._set_initial_time_dictionary"]}
{"id": "C07", "title": "Changing dmd_time never changes original_time", "statement": "Whatever sequence of edits is made on dmd_time (item assignment or replacement, including later edits of the dictionary that was assigned), original_time keeps the values set by fit; two time dictionaries compare equal iff t0, tend and dt are equal.", "quantifier": "every finite history of edits", "why_tests_cant": "aliasing bugs only show for particular histories", "anchors": ["pydmd/dmdbase.py:DMDBase.dmd_time", "pydmd/dmdbase.py:DMDBase._set_initial_time_dictionary", "pydmd/dmdbase.py:DMDTimeDict.__eq__"]}
{"id": "C08", "title": "Timesteps enumerate the time window", "statement": "For dt > 0 and t0 <= tend, dmd_timesteps / original_timesteps start at t0, advance by exactly dt, and contain tend as last element when tend - t0 is a multiple of dt, hence have (tend-t0)/dt + 1 entries; no entry lies after tend.", "quantifier": "all rational t0, tend, dt", "why_tests_cant": "infinitely many windows; off-by-one of the open upper bound depends on divisibility", "anchors": ["pydmd/dmdbase.py:DMDBase.dmd_timesteps", "pydmd/dmdbase.py:DMDBase.original_timesteps"]}
{"id": "C09", "title": "The snapshot chosen by opt is the phase reference", "statement": "With opt=k (k >= 0 or negative, Python convention) the dynamics at the timestep of the k-th input snapshot equal the amplitudes, with opt boolean they do at t0; at m timesteps later they are amplitude * eig^m.", "quantifier": "every k, number of snapshots, eigenvalues, amplitudes, t0 and dt", "why_tests_cant": "the index arithmetic for negative opt and shifted t0 must hold for all values", "anchors": ["pydmd/dmdbase.py:DMDBase._translate_eigs_exponent", "pydmd/dmdbase.py:DMDBase.dynamics"]}
{"id": "C10", "title": "Changing the reconstruction window only selects time instants", "statement": "For a fixed dt, enlarging dmd_time (earlier t0 or later tend by multiples of dt) leaves the reconstructed snapshots at the already present instants unchanged; the i-th column of reconstructed_data depends only on the i-th timestep.", "quantifier": "all windows and all fitted contents", "why_tests_cant": "relates two unbounded families of executions", "anchors": ["pydmd/dmdbase.py:DMDBase.dynamics", "pydmd/dmdbase.py:DMDBase.reconstructed_data", "pydmd/dmdbase.py:DMDBase.dmd_timesteps"]}
{"id": "C11", "title": "Reconstruction is additive over disjoint mode selections", "statement": "For any mask, the reconstruction with the mask plus the reconstruction with its complement equals the reconstruction with all modes.", "quantifier": "every mask, every number of modes, every window", "why_tests_cant": "2^n masks", "anchors": ["pydmd/dmdbase.py:DMDBase.reconstructed_data", "pydmd/dmdbase.py:ActivationBitmaskProxy.change_bitmask"]}
{"id": "C12", "title": "svd_rank selects an admissible number of singular values", "statement": "The truncation rank is min(k, number of singular values) for a positive int k, all of them for -1, between 1 and the number of singular values for 0 and for a float in (0,1); compute_svd returns exactly that many leading columns/values.", "quantifier": "every matrix shape with at least one singular value, every svd_rank value", "why_tests_cant": "branches depend on type and size of the argument, for all spectra", "anchors": ["pydmd/utils.py:_compute_rank", "pydmd/utils.py:compute_rank", "pydmd/utils.py:compute_svd"]}
{"id": "C13", "title": "Energy rank is the least rank reaching the energy", "statement": "For svd_rank = e in (0,1) and non-negative, not all zero singular values, the rank r is the smallest one such that the r leading squared singular values carry at least the fraction e of the total energy; it is monotone in e.", "quantifier": "all spectra and all e in (0,1)", "why_tests_cant": "minimality must hold for all real spectra, ties included", "anchors": ["pydmd/utils.py:_compute_rank"]}
{"id": "C14", "title": "Total-least-squares de-noising is a projection", "statement": "compute_tlsq with rank 0 returns the data unchanged; otherwise the pair it returns is the data multiplied by an orthogonal projection (Hermitian idempotent) of rank at most the requested one, so applying the same projection twice changes nothing. Among all pairs whose stacked matrix has at most that rank it is nearest to the data.", "quantifier": "all matrices and ranks", "why_tests_cant": "all inputs", "anchors": ["pydmd/utils.py:compute_tlsq"]}
{"id": "C15", "title": "Low-rank eigenpairs lift to eigenpairs of the full operator", "statement": "For every eigenpair of the reduced operator, the reported exact mode is an eigenvector of the best-fit operator A = Y X^+ and the projected mode is an eigenvector of the projected operator U U^H A with the reported eigenvalue.", "quantifier": "all snapshot pairs X, Y, all truncation ranks, all eigenpairs", "why_tests_cant": "identity over all matrices", "anchors": ["pydmd/dmdoperator.py:DMDOperator._least_square_operator", "pydmd/dmdoperator.py:DMDOperator._compute_eigenquantities", "pydmd/dmdoperator.py:DMDOperator._compute_modes"]}
{"id": "C16", "title": "DMD reproduces linear trajectories", "statement": "If the snapshots are x_{k+1} = A x_k for some matrix A, the rank is not truncated, the last snapshot is in the span of the earlier ones and the reduced operator is diagonalisable, then reconstructed_data equals the snapshots and extrapolates the trajectory; without that span condition it need not.", "quantifier": "all dimensions, all linear systems, all trajectory lengths, all future steps", "why_tests_cant": "universally quantified end-to-end statement", "anchors": ["pydmd/dmd.py:DMD.fit", "pydmd/dmdoperator.py:DMDOperator.compute_operator", "pydmd/dmdbase.py:DMDBase.reconstructed_data", "pydmd/dmdbase.py:DMDBase._compute_amplitudes"]}
{"id": "C17", "title": "Rescaling does not change eigenvalues or the mode space", "statement": "With rescale_mode given by nonzero factors (or 'auto'), the eigenvalues are those of the unscaled reduced operator and the rescaled eigenvectors are eigenvectors of it; factors of the wrong length and unknown values raise ValueError. The result of a fit depends only on the data of that fit.", "quantifier": "all operators, all scaling vectors, all refit histories", "why_tests_cant": "all matrices; the history part needs arbitrary sequences of fits", "anchors": ["pydmd/dmdoperator.py:DMDOperator._compute_eigenquantities", "pydmd/dmdoperator.py:DMDOperator.compute_operator"]}
{"id": "C18", "title": "Sorting eigenvalues permutes eigenpairs together", "statement": "With sorted_eigs='abs' or 'real' eigenvalues come out in ascending order of modulus, resp. of (real, imaginary) part, eigenvectors follow their eigenvalue, no pair is lost, duplicated or mixed; ties keep their order; other values raise ValueError.", "quantifier": "all lists of eigenpairs", "why_tests_cant": "all permutations and ties", "anchors": ["pydmd/dmdoperator.py:DMDOperator._compute_eigenquantities"]}
{"id": "C19", "title": "Optimal amplitudes minimise the reconstruction error", "statement": "With opt=True the amplitudes minimise the Frobenius error between the snapshots and modes*diag(b)*Vandermonde(eigs) over all amplitude vectors.", "quantifier": "all snapshots, modes, eigenvalues, competing amplitude vectors", "why_tests_cant": "optimality against all competitors", "anchors": ["pydmd/dmdbase.py:DMDBase._optimal_dmd_matrices", "pydmd/dmdbase.py:DMDBase._compute_amplitudes"]}
{"id": "C20", "title": "Snapshots are flattened losslessly", "statement": "fit accepts an array with time as last axis or a list of equally shaped snapshots; column t of dmd.snapshots is snapshot t flattened in C order, snapshots_shape is the shape of one snapshot, so reshaping a column gives back the snapshot; fewer than two snapshots, differing shapes, 1-D arrays or scalar snapshots raise ValueError.", "quantifier": "all shapes, all numbers of snapshots, all contents", "why_tests_cant": "arbitrary rank shapes", "anchors": ["pydmd/snapshots.py:Snapshots"]}
{"id": "C21", "title": "Hankel matrix entries", "statement": "pseudo_hankel_matrix(X, d) stacks d time-shifted copies: block row j, row i, column c is X[i, c+j]; it has d*rows rows and cols-d+1 columns.", "quantifier": "all matrices and all d between 1 and the number of columns", "why_tests_cant": "all sizes", "anchors": ["pydmd/utils.py:pseudo_hankel_matrix"]}
{"id": "C22", "title": "Hankel post-processing inverts Hankel pre-processing", "statement": "hankel_preprocessing with reconstruction_method 'first', 'mean' or non-negative weights with positive available sum returns the original snapshots when the inner DMD reproduces the Hankel matrix exactly.", "quantifier": "all snapshot matrices, delays and weights", "why_tests_cant": "all sizes; the boundary instants use fewer delays", "anchors": ["pydmd/preprocessing/hankel.py:_reconstructions", "pydmd/preprocessing/hankel.py:_first_reconstructions", "pydmd/preprocessing/hankel.py:_HankelPrePostProcessing"]}
{"id": "C23", "title": "HankelDMD reconstructs the requested window", "statement": "reconstructed_data of HankelDMD has one column per dmd_timestep and column i is the de-delayed state at that timestep, for any t0 <= tend in dmd_time (inside, before or after the training window).", "quantifier": "all delays, training lengths and windows", "why_tests_cant": "index arithmetic over unbounded windows", "anchors": ["pydmd/hankeldmd.py:HankelDMD.reconstructed_data", "pydmd/hankeldmd.py:HankelDMD._hankel_first_occurrence", "pydmd/hankeldmd.py:HankelDMD._update_sub_dmd_time"]}
{"id": "C24", "title": "Centering, projection and compression pre-processing round-trips", "statement": "zero_mean, svd_projection and randomized pre-processing followed by the matching post-processing are the identity on the training data when the basis spans the data (orthogonal projection onto it in general).", "quantifier": "all real or complex snapshot matrices", "why_tests_cant": "all matrices", "anchors": ["pydmd/preprocessing/zero_mean.py", "pydmd/preprocessing/svd_projection.py", "pydmd/preprocessing/randomized.py"]}
{"id": "C25", "title": "Stacked pre-processings are undone in reverse order", "statement": "Wrapping a DMD in several pre/post-processing layers feeds the inner DMD the composition of the pre-processings and returns its reconstruction through the post-processings in reverse order, each with the state its own pre-processing produced.", "quantifier": "every stack depth and every choice of layers", "why_tests_cant": "unbounded nesting", "anchors": ["pydmd/preprocessing/pre_post_processing.py:PrePostProcessingDMD"]}
{"id": "C26", "title": "A fit depends only on the data of that fit", "statement": "Refitting an instance gives the same modes, eigenvalues, amplitudes and time windows as fitting a fresh instance with the same parameters on the same data, whatever was fitted before and whatever masks were set.", "quantifier": "all classes, all sequences of fits with arbitrary data", "why_tests_cant": "histories of unbounded length", "anchors": ["pydmd/dmdbase.py:DMDBase._reset", "pydmd/dmd.py:DMD.fit", "pydmd/rdmd.py:RDMD", "pydmd/bopdmd.py:BOPDMD.fit", "pydmd/varprodmd.py:VarProDMD.fit", "pydmd/mrdmd.py:MrDMD.fit"]}
{"id": "C27", "title": "The multi-resolution tree addresses every node once", "statement": "The tree used by MrDMD has 2^(max_level+1)-1 nodes, (level, leaf) with leaf < 2^level address each exactly once, and reading an inadmissible level or leaf raises ValueError; reading returns the last value written to that node.", "quantifier": "all depths, all nodes, all write histories", "why_tests_cant": "all depths", "anchors": ["pydmd/mrdmd.py:BinaryTree"]}
{"id": "C28", "title": "Leaves of a level partition the snapshots", "statement": "At every level the leaves' pieces of the data, concatenated, are the data; each is non-empty when there are at least as many snapshots as leaves and lengths differ by at most one.", "quantifier": "all lengths and levels", "why_tests_cant": "all lengths", "anchors": ["pydmd/mrdmd.py:MrDMD.fit"]}
{"id": "C29", "title": "MrDMD reconstruction is the sum of its levels", "statement": "The data minus the sum of the levels' contributions is the residual handed to the next level, and reconstructed_data is the sum over levels of the concatenated leaf reconstructions, so data = reconstruction + final residual.", "quantifier": "all data, all depths, all leaf reconstructions", "why_tests_cant": "telescoping over any number of levels", "anchors": ["pydmd/mrdmd.py:MrDMD.fit", "pydmd/mrdmd.py:MrDMD.reconstructed_data"]}
{"id": "C30", "title": "time_window_bins returns exactly the overlapping nodes", "statement": "time_window_bins(t0, tend) lists exactly the (level, leaf) whose time interval overlaps the window, partial_time_interval of the leaves of a level tile the training window, and invalid level/leaf raise ValueError.", "quantifier": "all windows, depths and levels", "why_tests_cant": "all windows", "anchors": ["pydmd/mrdmd.py:MrDMD.time_window_bins", "pydmd/mrdmd.py:MrDMD.partial_time_interval"]}
{"id": "C31", "title": "MrDMD never descends below its resolution limit", "statement": "After fit max_level is the requested one or the deepest allowed by the number of snapshots, whichever is smaller, so that every leaf has enough snapshots to be fitted.", "quantifier": "all snapshot counts and requested levels", "why_tests_cant": "all sizes", "anchors": ["pydmd/mrdmd.py:MrDMD.fit"]}
{"id": "C32", "title": "select_modes keeps exactly the modes meeting the criterion", "statement": "After select_modes(dmd, criterion) the active modes are exactly those active modes for which the criterion holds, also when a mask was already set.", "quantifier": "all masks, all criteria", "why_tests_cant": "history-dependent: a second selection acts on an already filtered instance", "anchors": ["pydmd/dmd_modes_tuner.py:select_modes"]}
{"id": "C33", "title": "stabilize_modes moves eigenvalues onto the unit circle", "statement": "stabilize_modes changes exactly the eigenvalues with inner < |eig| < outer to modulus one with unchanged phase, multiplies the amplitude by the old modulus, leaves the others alone; doing it twice with a ring containing 1 changes nothing more.", "quantifier": "all eigenvalues, amplitudes and radii", "why_tests_cant": "all complex values", "anchors": ["pydmd/dmd_modes_tuner.py:stabilize_modes"]}
{"id": "C34", "title": "Mode selectors implement their thresholds", "statement": "ModesSelectors.threshold(low, up) keeps eigenvalues with modulus between low and up inclusive; stable_modes keeps those within the given distances of the unit circle and rejects missing or contradictory arguments with ValueError.", "quantifier": "all thresholds and eigenvalues", "why_tests_cant": "all values, including boundaries", "anchors": ["pydmd/dmd_modes_tuner.py:ModesSelectors"]}
{"id": "C35", "title": "integral_contribution keeps the n strongest modes", "statement": "integral_contribution(n) keeps exactly n modes (or all if fewer) and every kept mode has at least the integral contribution of every dropped one; the caller's dmd_time is unchanged afterwards.", "quantifier": "all n and all contributions", "why_tests_cant": "all values incl. ties and n = 0", "anchors": ["pydmd/dmd_modes_tuner.py:ModesSelectors._integral_contribution"]}
{"id": "C36", "title": "ModesTuner works on private copies", "statement": "Unless in_place=True, no operation of ModesTuner changes the instances passed in; subset tuners act on the same copies; get/copy return the tuned instances in the order and shape they were given; unknown criteria raise ValueError.", "quantifier": "all sequences of select/stabilize/subset operations", "why_tests_cant": "aliasing over arbitrary operation sequences", "anchors": ["pydmd/dmd_modes_tuner.py:ModesTuner"]}
{"id": "C37", "title": "Parametric snapshots are arranged and split consistently", "statement": "The space-time matrix built from parametric snapshots puts instant t of parameter p at column p*T+t, and splitting modal coefficients per parameter is its inverse, so coefficients of parameter p come only from snapshots of parameter p.", "quantifier": "all numbers of parameters, space and time sizes", "why_tests_cant": "all sizes", "anchors": ["pydmd/paramdmd.py:ParametricDMD._arrange_parametric_snapshots", "pydmd/paramdmd.py:ParametricDMD._compute_training_modal_coefficients", "pydmd/paramdmd.py:roll_shape", "pydmd/paramdmd.py:back_roll_shape"]}
{"id": "C38", "title": "Partitioned and monolithic parametric DMD share one time window", "statement": "All the DMDs of a partitioned ParametricDMD forecast over the dmd_time set on the parametric instance; fit rejects parameter/snapshot/DMD counts that disagree, and using it before parameters are set raises ValueError.", "quantifier": "all partitions and time settings", "why_tests_cant": "histories of time edits", "anchors": ["pydmd/paramdmd.py:ParametricDMD"]}
{"id": "C39", "title": "DMDc follows the controlled recurrence", "statement": "reconstructed_data(control) starts with the first lag snapshots and satisfies x_{i+lag} = A x_i + B u_i for every control column; its number of columns is lag + number of controls; a control of the wrong length raises RuntimeError.", "quantifier": "all systems, lags, controls", "why_tests_cant": "all lengths and lags", "anchors": ["pydmd/dmdc.py:DMDc.reconstructed_data", "pydmd/dmdc.py:DMDc.fit"]}
{"id": "C40", "title": "Finite differences are exact on quadratics", "statement": "differentiate(X, dt) keeps the shape and returns the exact derivative when every row samples a polynomial of degree at most two in time; invalid inputs raise ValueError.", "quantifier": "all step sizes, lengths >= 3, all quadratics", "why_tests_cant": "all lengths incl. both boundaries", "anchors": ["pydmd/utils.py:differentiate"]}
{"id": "C41", "title": "BOP-DMD eigenvalue constraints hold", "statement": "With eig_constraints the computed eigenvalues satisfy them: 'stable' gives non-positive real parts, 'imag' zero real parts, 'conjugate_pairs' a set closed under conjugation; enforcing is idempotent and invalid combinations are rejected with ValueError.", "quantifier": "all eigenvalue lists, all constraint sets, all pairing orders", "why_tests_cant": "all complex lists; the pairing loop order is unspecified", "anchors": ["pydmd/bopdmd.py:BOPDMDOperator._push_eigenvalues", "pydmd/bopdmd.py:BOPDMD._check_eig_constraints"]}
{"id": "C42", "title": "Bags are valid subsamples", "statement": "Every bag drawn by BOP-DMD has exactly trial_size (or int(fraction*m)) distinct snapshots in time order, all with their own time; impossible sizes raise ValueError.", "quantifier": "all data sizes, trial sizes and random draws", "why_tests_cant": "all random outcomes", "anchors": ["pydmd/bopdmd.py:BOPDMDOperator._bag"]}
{"id": "C43", "title": "The bagging loop stops", "statement": "The BOP-DMD bagging loop ends after exactly num_trials accepted trials or raises RuntimeError exactly when bag_maxfail consecutive trials failed; the reported means and deviations are those of the accepted trials only.", "quantifier": "every sequence of convergence outcomes", "why_tests_cant": "unbounded sequences of random outcomes", "anchors": ["pydmd/bopdmd.py:BOPDMDOperator.compute_operator"]}
{"id": "C44", "title": "Variable projection never returns a worse fit", "statement": "The error returned by the variable projection is not larger than that of its initial guess, the error sequence is non-increasing, and convergence is reported only if the error is below tolerance; the loop terminates. It stops only for one of four reasons: maxiter, tolerance, stall, or no tried step size reduces the error.", "quantifier": "all initial guesses, data, option values and all step outcomes", "why_tests_cant": "unbounded iterations", "anchors": ["pydmd/bopdmd.py:BOPDMDOperator._variable_projection"]}
{"id": "C45", "title": "COSTS windows cover the signal", "statement": "The sliding windows have the requested length, lie inside the data, start every step_size samples except the last which ends with the data, and together cover every time step when step_size <= window_length.", "quantifier": "all lengths, window lengths and steps", "why_tests_cant": "all sizes; rounding of the last window", "anchors": ["pydmd/costs.py:COSTS.build_windows", "pydmd/costs.py:COSTS.get_window_indices", "pydmd/costs.py:COSTS.fit"]}
{"id": "C46", "title": "COSTS overlapping windows average with total weight one", "statement": "The scale reconstruction at each time step is a weighted mean, with positive weights of sum one, of the windows covering it; so windows that all reproduce the data give back the data, and low + high frequency components add up to the global reconstruction.", "quantifier": "all windows and weights", "why_tests_cant": "all sizes", "anchors": ["pydmd/costs.py:COSTS.scale_reconstruction", "pydmd/costs.py:COSTS.global_reconstruction", "pydmd/costs.py:COSTS.scale_separation", "pydmd/costs.py:COSTS.build_kern"]}
{"id": "C47", "title": "Frequency bands are relabelled in increasing order", "statement": "After clustering, band 0 has the smallest centroid, band labels are a renaming of the clusters (no merging), and every eigenvalue keeps its cluster.", "quantifier": "all label vectors and centroid values", "why_tests_cant": "all permutations", "anchors": ["pydmd/costs.py:COSTS.cluster_omega", "pydmd/costs.py:COSTS._cluster"]}
{"id": "C48", "title": "HAVOK delay embedding is invertible", "statement": "dehankel(hankel(X)) = X for every admissible delays and lag; inputs with too few columns raise ValueError.", "quantifier": "all matrices, delays and lags", "why_tests_cant": "all sizes", "anchors": ["pydmd/havok.py:HAVOK.hankel", "pydmd/havok.py:HAVOK.dehankel"]}
{"id": "C49", "title": "LANDO splits the learnt model exactly", "statement": "About any base point, f(x) equals bias + linear part + nonlinear part, and the linear part is the derivative of the learnt model at the base point for the linear, polynomial and RBF kernels.", "quantifier": "all dictionaries, weights, base points, evaluation points, kernel parameters", "why_tests_cant": "all real inputs", "anchors": ["pydmd/lando.py:LANDO.f", "pydmd/lando.py:LANDO.nonlinear", "pydmd/lando.py:LANDO.kernel_gradient", "pydmd/lando.py:LANDO.bias"]}
{"id": "C50", "title": "Physics-informed manifolds are respected", "statement": "PiDMD's operator lies in the requested manifold: unitary, symmetric, skew-symmetric, upper/lower triangular, banded with the requested widths, circulant, and is the closest fit within it for the symmetric families.", "quantifier": "all data matrices and manifold options", "why_tests_cant": "all matrices", "anchors": ["pydmd/pidmd_utils.py", "pydmd/pidmd.py:PiDMDOperator"]}
{"id": "C51", "title": "Sparsity-promoting DMD returns the constrained optimum", "statement": "SpDMD amplitudes vanish on the modes its ADMM loop discards and, among amplitude vectors vanishing there, minimise the reconstruction error; the loop stops within max_iterations.", "quantifier": "all Gram data, all zero patterns, all iteration counts", "why_tests_cant": "optimality against all competitors", "anchors": ["pydmd/spdmd.py:SpDMD._optimal_amplitudes", "pydmd/spdmd.py:SpDMD._find_zero_amplitudes"]}
{"id": "C52", "title": "SpDMD shrinkage is soft thresholding", "statement": "The amplitude update shrinks each entry's modulus by the threshold, keeping its phase, and zeroes entries not above the threshold.", "quantifier": "all complex entries and thresholds", "why_tests_cant": "all values", "anchors": ["pydmd/spdmd.py:soft_thresholding_operator"]}
{"id": "C53", "title": "The truncation rank does not depend on units", "statement": "Multiplying all the data by a positive constant never changes the rank selected by any svd_rank; the automatic rank (svd_rank=0) keeps at least one and at most half of the singular values (or one).", "quantifier": "all spectra, all matrix shapes, all svd_rank values, all positive factors", "why_tests_cant": "A test checks a few spectra; the claim is an invariance over all spectra and all scale factors, including ties at the median and at the energy threshold.", "anchors": ["pydmd/utils.py:_compute_rank", "pydmd/utils.py:_svht", "pydmd/utils.py:compute_rank"]}
{"id": "C54", "title": "Forward-backward DMD returns the eigenvalues of a noise-free linear system", "statement": "If the snapshots satisfy x_{k+1} = A x_k without noise and nothing is truncated, DMD with forward_backward=True (FbDMD) has, up to sign, the same eigenvalues as the forward operator.", "quantifier": "all linear systems, all snapshots, all singular value decompositions", "why_tests_cant": "depends on the relative position of two SVD bases, which coincide in the usual test data", "anchors": ["pydmd/dmdoperator.py:DMDOperator.compute_operator", "pydmd/fbdmd.py:FbDMD"]}
{"id": "C55", "title": "Tikhonov regularisation is ridge regression", "statement": "With tikhonov_regularization=t the operator U^H Y V (S^2 + t*norm_X)^-1 S is the reduced form of a minimiser of ||Y - B X||^2 + t*norm_X*||B||^2 over matrices B acting on the snapshot space.", "quantifier": "all snapshot matrices, all positive regularisation parameters, all competitors", "why_tests_cant": "optimality against all competitors", "anchors": ["pydmd/dmdoperator.py:DMDOperator._least_square_operator"]}
{"id": "C56", "title": "HankelDMD accepts what DMD accepts", "statement": "HankelDMD.fit accepts every input documented for fit (arrays with any number of space axes, lists of snapshots), like DMD.fit does.", "quantifier": "all shapes and both input kinds", "why_tests_cant": "the input space is unbounded; tests use matrices", "anchors": ["pydmd/hankeldmd.py:HankelDMD.fit", "pydmd/preprocessing/hankel.py:_HankelPrePostProcessing.pre_processing", "pydmd/utils.py:pseudo_hankel_matrix"]}
{"id": "C57", "title": "A wrapped DMD is used like the DMD it wraps", "statement": "fit of a pre/post-processed DMD returns the object it was called on, editing or assigning dmd_time changes the window of reconstructed_data, and reads of dmd_time see what was written.", "quantifier": "every stack of wrappers and every window", "why_tests_cant": "all nestings of stateful wrappers", "anchors": ["pydmd/preprocessing/pre_post_processing.py:PrePostProcessingDMD"]}
{"id": "C58", "title": "One reconstructed column per timestep after a fit", "statement": "Directly after fit, reconstructed_data has exactly one column per entry of dmd_timesteps, for DMD and for MrDMD.", "quantifier": "all data, ranks and levels", "why_tests_cant": "tests compare shapes of one dataset, for MrDMD none compares the timesteps with the reconstruction", "anchors": ["pydmd/dmdbase.py:dmd_timesteps", "pydmd/mrdmd.py:fit", "pydmd/mrdmd.py:reconstructed_data"]}
{"id": "C59", "title": "Nullified amplitudes keep the modes", "statement": "select_modes(dmd, criterion, nullify_amplitudes=True) keeps every mode and eigenvalue and sets to zero exactly the amplitudes of the modes that do not meet the criterion.", "quantifier": "all criteria and fitted instances", "why_tests_cant": "Tests check that some amplitudes vanish for one criterion; that the visible amplitudes are the nullified ones for all selections needs the state of the proxy.", "anchors": ["pydmd/dmd_modes_tuner.py:select_modes", "pydmd/dmdbase.py:DMDBase.amplitudes"]}
{"id": "C60", "title": "predict advances one step", "statement": "For independent modes predict(X) multiplies the least-squares coefficients of each column on the modes by the eigenvalues; predicting from reconstructed states gives the next reconstructed states, and on noise-free linear trajectories the true next states.", "quantifier": "all modes, eigenvalues, inputs, linear systems", "why_tests_cant": "Tests compare one data set up to a tolerance; the claim is an identity over all inputs and systems.", "anchors": ["pydmd/dmd.py:DMD.predict"]}
{"id": "C61", "title": "Parametric DMD reproduces its training data", "statement": "If the DMDs reproduce the data they are fitted on, the POD loses nothing on the training snapshots and the interpolator is exact at the training parameters, then reconstructed_data for the training parameters equals the training tensor, axis by axis, for monolithic and partitioned instances.", "quantifier": "all tensors, all numbers of parameters, all such components", "why_tests_cant": "Tests check shapes and tolerances for one data set; a permutation of parameters and space or time that preserves shapes would pass.", "anchors": ["pydmd/paramdmd.py:ParametricDMD.fit", "pydmd/paramdmd.py:ParametricDMD.reconstructed_data"]}
{"id": "C62", "title": "A rejected parametric fit leaves the previous fit intact", "statement": "If ParametricDMD.fit raises ValueError because the counts disagree, the instance behaves as before the call.", "quantifier": "all instances and rejected inputs", "why_tests_cant": "Tests check only that the exception is raised, on a fresh instance.", "anchors": ["pydmd/paramdmd.py:ParametricDMD.fit"]}
{"id": "C63", "title": "DMDc predicts the response of a noise-free controlled system", "statement": "On data satisfying x_{i+lag} = A x_i + B u_i exactly, with enough excitation, full rank and a diagonalisable reduced operator with nonzero eigenvalues, DMDc (with B given, or identified) returns the true B and reconstructed_data(control) is the true response to every control of the right size, in particular the training data for the training control.", "quantifier": "all systems, lags, data lengths and controls", "why_tests_cant": "Tests check a few random systems with a tolerance and only with the training control.", "anchors": ["pydmd/dmdc.py:DMDBKnownOperator.compute_operator", "pydmd/dmdc.py:DMDBUnknownOperator.compute_operator", "pydmd/dmdc.py:DMDc.reconstructed_data"]}
{"id": "C64", "title": "The amplitude step of SpDMD minimises the augmented Lagrangian", "statement": "_update_alpha returns the minimiser over all amplitude vectors of the reconstruction error plus Re<lambda, a - beta> plus rho/2 |a - beta|^2, for rho > 0.", "quantifier": "all modes, eigenvalues, snapshots, multipliers and competitors", "why_tests_cant": "Optimality against all competitors.", "anchors": ["pydmd/spdmd.py:SpDMD._update_alpha", "pydmd/dmdbase.py:DMDBase._optimal_dmd_matrices"]}
{"id": "C65", "title": "COSTS bands are ordered by frequency", "statement": "After clustering with any documented transform_method (default 'absolute'), an eigenvalue in a lower band never has a higher frequency than an eigenvalue in a higher band, so that the low-frequency component returned by scale_separation holds the lowest frequencies.", "quantifier": "all frequencies, labels and centroids of a nearest-centroid clustering", "why_tests_cant": "all arrays, all clusterings", "anchors": ["pydmd/costs.py:COSTS.transform_omega", "pydmd/costs.py:COSTS._cluster", "pydmd/costs.py:COSTS.cluster_omega", "pydmd/costs.py:COSTS.scale_separation"]}
{"id": "C66", "title": "HAVOK learns the best linear model with forcing", "statement": "A and B returned by HAVOK minimise the squared error of dv/dt = A v + B u on the embeddings, do not depend on the option lstsq, equal the true matrices when the embeddings obey such a law, and the linear embeddings map back to the Hankel matrix up to the part carried by the forcing.", "quantifier": "all embeddings, derivatives, ranks and numbers of forcing terms", "why_tests_cant": "all real matrices", "anchors": ["pydmd/havok.py:HAVOK.fit", "pydmd/havok.py:HAVOK.A", "pydmd/havok.py:HAVOK.B", "pydmd/havok.py:HAVOK._embeddings_to_original"]}
{"id": "C67", "title": "HAVOK active intervals partition the active indexes", "statement": "_get_index_slices returns the ends of consecutive groups that together contain every index exactly once, with steps of at most min_jump_dist inside a group and larger steps between groups.", "quantifier": "all non-empty index arrays and distances", "why_tests_cant": "all lists", "anchors": ["pydmd/havok.py:HAVOK._get_index_slices"]}
{"id": "C68", "title": "BOP-DMD forecast continues the fitted exponentials", "statement": "After fit without bagging, forecast(t) is the sum of the fitted coefficients times exp(omega t): normalising the modes and storing their norms as amplitudes does not change it, except for modes dropped as negligible.", "quantifier": "all coefficients, eigenvalues, times and mode thresholds", "why_tests_cant": "all complex vectors", "anchors": ["pydmd/bopdmd.py:BOPDMDOperator._compute_modes_amplitudes", "pydmd/bopdmd.py:BOPDMD.forecast"]}
{"id": "C69", "title": "BOP-DMD does not modify the initial guess", "statement": "BOPDMD.fit leaves the array passed as init_alpha unchanged.", "quantifier": "all arrays and constraint sets", "why_tests_cant": "all complex arrays", "anchors": ["pydmd/bopdmd.py:BOPDMDOperator._push_eigenvalues", "pydmd/bopdmd.py:BOPDMD.fit"]}
{"id": "C70", "title": "Toeplitz and block-circulant manifolds are fitted optimally", "statement": "For the manifolds toeplitz, hankel, BC, BCTB and BCCB (with its options), the operator A returned by PiDMD has exactly the requested structure and no other matrix with that structure has a smaller residual ||Y - A X||.", "quantifier": "all sizes, all real or complex data, all block shapes, all admissible least-squares solutions", "why_tests_cant": "optimality over an infinite set of matrices, for all data", "anchors": ["pydmd/pidmd_utils.py:compute_toeplitz", "pydmd/pidmd_utils.py:compute_BC", "pydmd/pidmd_utils.py:compute_BCCB"]}
{"id": "C71", "title": "Circulant manifolds are fitted optimally", "statement": "For the circulant manifolds the operator is circulant (and unitary, symmetric or skew-symmetric if requested) and the closest fit; truncated to rank r it is the closest circulant fit of rank at most r; the eigenvalues and modes returned without compute_A are eigenpairs of it.", "quantifier": "all sizes, all data, all ranks, all options", "why_tests_cant": "optimality over an infinite set of matrices, for all data", "anchors": ["pydmd/pidmd_utils.py:compute_circulant"]}
{"id": "C72", "title": "LANDO's dictionary is sparse and covers the data", "statement": "The dictionary learnt by LANDO consists of snapshots, a snapshot is added exactly if its squared distance in feature space to the span of the dictionary exceeds dict_tol, every snapshot ends up within dict_tol of that span, the dictionary features are linearly independent, and the Cholesky factor always factors the kernel matrix of the dictionary.", "quantifier": "all positive semidefinite kernels, all snapshot sequences and orders, all tolerances", "why_tests_cant": "invariant over unbounded sequences of snapshots, for all kernels", "anchors": ["pydmd/lando.py:LANDOOperator.compute_operator", "pydmd/lando.py:LANDOOperator._cholesky_step", "pydmd/lando.py:LANDOOperator._update_cholesky"]}
{"id": "C73", "title": "Online learning agrees with batch learning", "statement": "A LANDO model fitted with online=True and then updated any number of times has weights that minimise the sum of squared errors over all snapshot pairs seen so far (each replaced by its projection onto the dictionary; with dict_tol=0 exactly the batch objective), and the same dictionary as a batch fit.", "quantifier": "all kernels with a feature map, all streams of pairs, all tolerances", "why_tests_cant": "invariant over unbounded streams of updates", "anchors": ["pydmd/lando.py:LANDOOperator._update_online", "pydmd/lando.py:LANDO.update"]}
{"id": "C74", "title": "LANDO's modes are eigenvectors of the linear operator", "statement": "The eigenvalues and modes reported after analyze_fixed_point are eigenpairs of the linear operator (of its restriction to the retained singular directions when svd_rank truncates), with modulus above 1e-16, in order of descending modulus; untruncated, every eigenvalue of modulus above 1e-16 is reported.", "quantifier": "all weights, gradients, ranks", "why_tests_cant": "all real matrices", "anchors": ["pydmd/lando.py:LANDOOperator.compute_linear_operator"]}
{"id": "C75", "title": "The parts read off a LANDO instance belong together", "statement": "Whatever sequence of fit, analyze_fixed_point and update calls was made, if bias, linear and nonlinear answer, they split the current f about the last analysed point. f, analyze_fixed_point and update raise ValueError exactly if fit was never called (update also without online learning), bias, linear and nonlinear exactly if no analysis followed a fit.", "quantifier": "all call sequences", "why_tests_cant": "unbounded call sequences", "anchors": ["pydmd/lando.py:LANDO.fit", "pydmd/lando.py:LANDO.analyze_fixed_point", "pydmd/lando.py:LANDO.update", "pydmd/lando.py:LANDO.linear", "pydmd/lando.py:LANDO.nonlinear"]}
{"id": "C76", "title": "LANDO predicts orbits and accepts rescaling for all snapshot shapes", "statement": "predict(x0, tend, continuous=False) returns the first tend iterates of the learnt model from x0, and an x_rescale array of the snapshots' shape is accepted by every fit, for snapshots of every shape.", "quantifier": "all models, lengths, shapes", "why_tests_cant": "all shapes and numbers of steps", "anchors": ["pydmd/lando.py:LANDO.predict", "pydmd/lando.py:LANDO._check_x_rescale"]}
{"id": "C77", "title": "Compressed DMD is DMD when compression loses nothing", "statement": "CDMD(compression_matrix=C).fit(X) with all nonzero singular values kept and no further options: if C is injective on the span of the left snapshots and the right snapshots lie in that span, rank and eigenvalues (with multiplicity) are those of exact DMD on the full data, the modes are exact DMD modes for the same eigenvalues, and for data of a linear system they are eigenvectors of it.", "quantifier": "all snapshot matrices, all compression matrices, all SVDs and eigenvectors the library may return", "why_tests_cant": "tests compare a few random compressions numerically; injectivity on the span is a condition on arbitrary matrices", "anchors": ["pydmd/cdmd.py:CDMDOperator.compute_operator", "pydmd/cdmd.py:CDMD.fit"]}
{"id": "C78", "title": "Randomized DMD is DMD when the sketch captures the snapshots", "statement": "RDMD: Q has orthonormal columns and Q B is the best approximation of the snapshots in the range of Q. If every snapshot is a combination of the columns of the sketch, then for every number of power iterations the snapshots are recovered exactly, and singular values, reduced operator and modes are those of exact DMD.", "quantifier": "all snapshots, test matrices, power iteration counts, QR factorisations", "why_tests_cant": "random test matrices; the claim covers all of them and every number of power iterations", "anchors": ["pydmd/rdmd.py:RDMD._compress_snapshots", "pydmd/utils.py:compute_rqb"]}
{"id": "C79", "title": "Options of compressed DMD", "statement": "CDMD accepts the documented compression matrices ('sample' keeps distinct entries of the snapshots) and the documented options rescale_mode ('auto' included) and tikhonov_regularization; wrong shapes and unknown values raise.", "quantifier": "all snapshots, draws and option values", "why_tests_cant": "the failing combinations are not tested", "anchors": ["pydmd/cdmd.py:CDMD._compress_snapshots", "pydmd/cdmd.py:CDMDOperator.compute_operator", "pydmd/dmdoperator.py:DMDOperator._least_square_operator"]}
{"id": "C80", "title": "OptDMD predicts with the best low-rank operator", "statement": "OptDMD(factorization='svd', svd_rank=r).fit(X, Y).predict(x) is A x for a matrix A of rank at most r, and no matrix of rank at most r gives a smaller Frobenius error ||Y - A X||.", "quantifier": "all data, all SVDs the library may return, all matrices of rank at most r", "why_tests_cant": "optimality is against all matrices of bounded rank; tests compare numbers for one data set", "anchors": ["pydmd/optdmd.py:DMDOptOperator.compute_operator", "pydmd/optdmd.py:OptDMD.predict", "pydmd/optdmd.py:pinv_diag"]}
{"id": "C81", "title": "OptDMD modes are eigenvectors of the optimal operator", "statement": "OptDMD(factorization='evd'): modes[:, i] is an eigenvector of the optimal operator with eigenvalue eigs[i] (and not zero), the stored left eigenvectors likewise, and predict works.", "quantifier": "all data and eigen-decompositions", "why_tests_cant": "the failures depend on the sign of the real part of the eigenvalues; tests check shapes and eigenvalues", "anchors": ["pydmd/optdmd.py:DMDOptOperator._compute_eigenquantities", "pydmd/optdmd.py:OptDMD.predict", "pydmd/optdmd.py:pinv_diag"]}
{"id": "C82", "title": "SubspaceDMD finds eigenpairs of a linear system", "statement": "For noise-free snapshots x_{i+1} = A x_i spanning an invariant subspace, SubspaceDMD(svd_rank=-1).fit leaves as many modes as the rank of the data, every (eigs[i], modes[:, i]) is an eigenpair of A, every eigenvalue of A on the span is found, and with svd_rank=r>0 there are at most r modes. rescale_mode='auto' works as documented.", "quantifier": "all A, all trajectories, all SVDs and eigendecompositions the library may return", "why_tests_cant": "tests use one fixed noisy or noise-free system and look at shapes and eigenvalues", "anchors": ["pydmd/subspacedmd.py:SubspaceDMDOperator.compute_operator", "pydmd/subspacedmd.py:SubspaceDMDOperator._compute_modes", "pydmd/subspacedmd.py:SubspaceDMD.fit"]}
{"id": "C83", "title": "EDMD eigenfunctions are Koopman eigenfunctions", "statement": "For a kernel with finitely many features whose span is invariant under the dynamics F, and data pairs (x, F x), EDMD(...).fit(X, Y).eigenfunctions satisfies phi_i(F x) = lambda_i phi_i(x) at every point x whose features are spanned by those of the data, the functions with nonzero eigenvalue are not zero, and every Koopman eigenvalue with an eigenfunction in the span is found.", "quantifier": "all kernels with finite features, all dynamics, data and points, all results of the library routines", "why_tests_cant": "a statement about all points of the state space and all systems; tests evaluate one system on a grid", "anchors": ["pydmd/edmd.py:EDMDOperator.compute_operator", "pydmd/edmd.py:EDMDOperator._compute_feature_matrix_svd", "pydmd/edmd.py:EDMD.eigenfunctions"]}
{"id": "C84", "title": "EDMD modes reproduce the orbits", "statement": "In the setting of C83, if the state is linear in the features, F^t(x) = sum_i modes[:, i] eigs[i]^t eigenfunctions(x)[i] for t >= 1.", "quantifier": "all systems, points and times", "why_tests_cant": "all times and points at once; tests compare one reconstruction", "anchors": ["pydmd/edmd.py:EDMDOperator.compute_operator", "pydmd/edmd.py:EDMD.eigenfunctions"]}
{"id": "C85", "title": "EDMD with the linear kernel is DMD", "statement": "EDMD(kernel_metric='linear') has the eigenvalues and modes of DMD(exact=False) with the same svd_rank.", "quantifier": "all data and ranks", "why_tests_cant": "equality of two algorithms for all inputs", "anchors": ["pydmd/edmd.py:EDMDOperator.compute_operator", "pydmd/dmdoperator.py:DMDOperator.compute_operator"]}
{"id": "C86", "title": "EDMD interface", "statement": "The constructor rejects exactly svd_rank=0, parameters that are not a dictionary and invalid kernels; svd_rank has the same meaning as for DMD; after fit, eigenfunctions(x) returns one value per retained singular value.", "quantifier": "all arguments and data", "why_tests_cant": "tests try single values; the failing combination (fit without Y) is not among them", "anchors": ["pydmd/edmd.py:EDMD.__init__", "pydmd/edmd.py:EDMD.eigenfunctions", "pydmd/edmd.py:EDMDOperator._compute_rank_from_svals"]}
{"id": "C87", "title": "VarProDMD minimises over eigenvalues and modes jointly", "statement": "The residual VarProDMD gives to least_squares is, for each set of exponents, the distance of the data to the best combination of the exponentials; so minimising exponents with the returned coefficients minimise the error over exponents and coefficients jointly.", "quantifier": "all data, times, exponents and results of the SVD", "why_tests_cant": "a minimum over all real parameters cannot be tested by sampling", "anchors": ["pydmd/varprodmd.py:_compute_dmd_rho", "pydmd/varprodmd.py:_compute_dmd_varpro"]}
{"id": "C88", "title": "VarProDMD Jacobian", "statement": "The Jacobian given to least_squares is the derivative of the residual by the real and imaginary parts of the exponents.", "quantifier": "all data, times and exponents with independent exponentials", "why_tests_cant": "derivatives at all points; finite differences test one point up to a tolerance", "anchors": ["pydmd/varprodmd.py:_compute_dmd_jac", "pydmd/varprodmd.py:_compute_dmd_rho"]}
{"id": "C90", "title": "VarProDMD forecast is the best fit", "statement": "At the times used by the fit, forecast is the best approximation of the (rank truncated) snapshots by combinations of the fitted exponentials.", "quantifier": "all data, times and courses of the optimisation", "why_tests_cant": "optimality over all coefficient matrices, for every course of the optimiser", "anchors": ["pydmd/varprodmd.py:compute_varprodmd_any", "pydmd/varprodmd.py:varprodmd_predict", "pydmd/varprodmd.py:_OptimizeHelper", "pydmd/varprodmd.py:VarProDMD.forecast"]}
{"id": "C91", "title": "VarProDMD initial guess", "statement": "If the data satisfy the trapezoidal rule for a linear system exactly, the optimisation starts at the eigenvalues of the system.", "quantifier": "all systems, times and data of full rank", "why_tests_cant": "the optimiser hides a wrong start on the examples of the tests", "anchors": ["pydmd/varprodmd.py:_compute_dmd_ev", "pydmd/varprodmd.py:_varpro_preprocessing", "pydmd/varprodmd.py:compute_varprodmd_any"]}
{"id": "C92", "title": "VarProDMD sorting", "statement": "sorted_eigs='real'/'imag'/'abs' sorts by the absolute real part, absolute imaginary part, absolute value, descending, 'auto' by the one with the largest variance; eigenvalues, modes and amplitudes are permuted together and forecasts do not change; other strings raise ValueError.", "quantifier": "all eigenvalues, modes, amplitudes, forecasts", "why_tests_cant": "tests use one set of eigenvalues", "anchors": ["pydmd/varprodmd.py:VarProOperator.compute_operator", "pydmd/varprodmd.py:varprodmd_predict"]}
{"id": "C93", "title": "VarProDMD samples, ssr and reconstruction", "statement": "compression c selects floor((1-c)m) different samples, c<=0 all, c>=1 raises ValueError; ssr is the norm of the residual; reconstructed_data is the forecast at the times given to fit; with r retained singular values of m snapshots there are min(r, m-1) eigenvalues.", "quantifier": "all data, compressions and times", "why_tests_cant": "tests use a few compressions on one data set", "anchors": ["pydmd/varprodmd.py:select_best_samples_fast", "pydmd/varprodmd.py:compute_varprodmd_any", "pydmd/varprodmd.py:VarProDMD.ssr", "pydmd/varprodmd.py:VarProDMD.dynamics"]}
{"id": "C89", "title": "The Levenberg-Marquardt step of BOP-DMD descends", "statement": "Without eigenvalue constraints and proximal operator, each step of BOPDMD's variable projection minimises the linearised error plus the penalty lambda^2 sum (d_i |delta_i|)^2; where the exponentials are independent, increasing lambda finds a step that reduces the error unless no direction changes the error to first order, and then the step is zero; with use_fulljac and use_levmarq either way.", "quantifier": "all data, times, exponents, results of lstsq, SVD and pivoted QR", "why_tests_cant": "a limit statement about all problems; tests only see that some fits converge", "anchors": ["pydmd/bopdmd.py:BOPDMD._variable_projection", "pydmd/bopdmd.py:BOPDMD._exp_function_deriv", "pydmd/bopdmd.py:BOPDMD._compute_irank_svd"]}
{"id": "C94", "title": "The time interval of a leaf covers its snapshots", "statement": "partial_time_interval(level, leaf) is the interval of the times of exactly the snapshots the leaf was fitted on, so that time_window_bins and the time_window_* methods report the leaves fitted on the data of the window.", "quantifier": "all numbers of snapshots, levels and leaves", "why_tests_cant": "the example tests use numbers of snapshots for which the leaves are equally wide", "anchors": ["pydmd/mrdmd.py:MrDMD.partial_time_interval", "pydmd/mrdmd.py:MrDMD.time_window_bins", "pydmd/mrdmd.py:MrDMD.fit"]}
{"id": "C95", "title": "Only slow modes are kept in a leaf", "statement": "Every mode kept in a leaf with n snapshots has a nonzero eigenvalue, makes fewer than max_cycles cycles over the n snapshots and changes its size by less than exp(2 pi max_cycles); an undamped mode is kept exactly if it makes fewer than max_cycles cycles.", "quantifier": "all eigenvalues, max_cycles and numbers of snapshots", "why_tests_cant": "a statement on all complex eigenvalues", "anchors": ["pydmd/mrdmd.py:MrDMD.fit"]}
{"id": "C96", "title": "The accessors of MrDMD agree with its reconstruction", "statement": "reconstructed_data is modes times dynamics; eigs, the columns of modes and the rows of dynamics correspond; each row of dynamics is the leaf's dynamics in the leaf's window and zero elsewhere; partial_* and time_window_eigs give the parts of the leaves they name and raise ValueError for levels or leaves that do not exist.", "quantifier": "all trees of all depths, all leaves with any numbers of modes and snapshots", "why_tests_cant": "tests use one tree with few levels", "anchors": ["pydmd/mrdmd.py:MrDMD.modes", "pydmd/mrdmd.py:MrDMD.dynamics", "pydmd/mrdmd.py:MrDMD.eigs", "pydmd/mrdmd.py:MrDMD.reconstructed_data", "pydmd/mrdmd.py:MrDMD.partial_modes", "pydmd/mrdmd.py:MrDMD.partial_dynamics", "pydmd/mrdmd.py:MrDMD.partial_eigs", "pydmd/mrdmd.py:MrDMD.partial_amplitudes", "pydmd/mrdmd.py:MrDMD.partial_reconstructed_data", "pydmd/mrdmd.py:MrDMD.time_window_eigs"]}
{"id": "C97", "title": "HODMD is HankelDMD when the extra reduction loses nothing", "statement": "HODMD accepts arrays of any shape and lists with at least d snapshots. For real snapshots, if the extra SVD reduction loses nothing, HODMD has the eigenvalues of HankelDMD, its modes and reconstruction are those of HankelDMD after applying the projection matrix to each delay block, and snapshots reproduced by the innermost DMD are reproduced.", "quantifier": "all snapshots, d, projection matrices, reconstruction methods", "why_tests_cant": "tests compare a few shapes on one data set", "anchors": ["pydmd/hodmd.py:HODMD", "pydmd/preprocessing/svd_projection.py:svd_projection_preprocessing"]}
{"id": "C98", "title": "Pre-processing treats X and Y alike", "statement": "A pre-processed DMD fitted on pairs, fit(X, Y), learns the operator from the pre-processed X to the equally pre-processed Y.", "quantifier": "all data X, Y and pre-processings of the package", "why_tests_cant": "no test of the package fits a pre-processed DMD on pairs", "anchors": ["pydmd/preprocessing/pre_post_processing.py:PrePostProcessingDMD._replace_training_data", "pydmd/preprocessing/zero_mean.py:zero_mean_preprocessing"]}
{"id": "C99", "title": "COSTS survives the conversion to xarray", "statement": "to_xarray of a fitted and clustered COSTS object succeeds, and from_xarray of the result gives an object with the same attributes that can be used like the original.", "quantifier": "all fits, clusterings and keyword arguments", "why_tests_cant": "the tests compare a few attributes of one object", "anchors": ["pydmd/costs.py:COSTS.to_xarray", "pydmd/costs.py:COSTS.from_xarray", "pydmd/costs.py:COSTS._xarray_sanitize", "pydmd/costs.py:COSTS._xarray_unsanitize", "pydmd/costs.py:COSTS.cluster_omega"]}
{"id": "C100", "title": "COSTS fits every window with the requested rank", "statement": "With svd_rank a positive integer every window is fitted with that rank (at most what its size allows), with svd_rank=0 with the optimal rank, with a fraction with the rank capturing that energy, in all cases at most max_rank.", "quantifier": "all data, windows, svd_rank, max_rank, global_svd", "why_tests_cant": "tests use fixed ranks on one data set", "anchors": ["pydmd/costs.py:COSTS.fit", "pydmd/costs.py:COSTS._build_proj_basis", "pydmd/utils.py:compute_rank", "pydmd/utils.py:_compute_rank", "pydmd/bopdmd.py:BOPDMD.fit"]}
{"id": "C101", "title": "Levels of mrCOSTS and the caller do not share their keyword arguments", "statement": "Each level of mrCOSTS is fitted with, and records, the projection basis of its own data if global_svd holds for it and none otherwise; the dictionary passed by the caller is not changed.", "quantifier": "all lists of levels, all dictionaries", "why_tests_cant": "aliasing shows only with mixed global_svd or a dictionary used twice", "anchors": ["pydmd/mrcosts.py:mrCOSTS.fit", "pydmd/costs.py:COSTS.__init__", "pydmd/costs.py:COSTS.fit"]}
{"id": "C102", "title": "Global bands follow the eigenvalues", "statement": "After mrCOSTS has interpolated the levels to a common time grid, clustered and interpolated back, each mode outside the lowest local band has the global band of its own eigenvalue, and the other modes have none.", "quantifier": "all levels, window centres, eigenvalues, clusterings", "why_tests_cant": "tests look at one data set; the effect depends on the window geometry", "anchors": ["pydmd/mrcosts.py:mrCOSTS.multi_res_interp", "pydmd/mrcosts.py:mrCOSTS.multi_res_deterp", "pydmd/mrcosts.py:mrCOSTS.global_cluster_omega"]}
{"id": "C103", "title": "The error of mrCOSTS is the sum of the errors of its levels", "statement": "The data minus global_reconstruction() is the sum over the levels of the error of the local reconstruction of the level, so that it vanishes if every level reproduces its input.", "quantifier": "all levels, windows, bands, data, places and times", "why_tests_cant": "tests check one data set with a tolerance", "anchors": ["pydmd/mrcosts.py:mrCOSTS.global_reconstruction", "pydmd/mrcosts.py:mrCOSTS.global_scale_reconstruction", "pydmd/mrcosts.py:mrCOSTS.get_background", "pydmd/costs.py:COSTS.scale_separation"]}
{"id": "C104", "title": "Starting points of the windows of COSTS", "statement": "The guess each window is fitted with is the one the options ask for: one guess found from the entire data set with global_svd, the guess of the first window by default, the eigenvalues of the window before with use_last_freq, a new guess with reset_alpha_init; apart from that the windows are fitted independently.", "quantifier": "all windows, options, ranks, numerical routines", "why_tests_cant": "the guess is not visible in the results of well conditioned examples", "anchors": ["pydmd/costs.py:COSTS.fit", "pydmd/bopdmd.py:BOPDMD.fit"]}
{"id": "C105", "title": "Guesses from the clustering", "statement": "With initialize_artificially the fit starts at init_alpha, or at the conjugate pairs of the frequencies of the given or last found bands.", "quantifier": "all numbers of bands, ranks, centroids and sequences of fits and clusterings", "why_tests_cant": "no test of the package sets initialize_artificially", "anchors": ["pydmd/costs.py:COSTS._build_initialization", "pydmd/costs.py:COSTS.__init__", "pydmd/costs.py:COSTS.cluster_omega"]}
{"id": "C106", "title": "Averages of the bags of BOP-DMD", "statement": "The eigenvalues, modes and amplitudes reported by a BOPDMD fit with bagging are the means of those of the trials used, matched with each other, and the *_std attributes their standard deviations; bags that find the same modes give these modes and deviation 0.", "quantifier": "all numbers of trials, ranks, orders, outcomes of the trials", "why_tests_cant": "the trials are random; which of two eigenvalues comes first in a bag is decided by noise", "anchors": ["pydmd/bopdmd.py:BOPDMDOperator._argsort_eigenvalues", "pydmd/bopdmd.py:BOPDMDOperator.compute_operator"]}
{"id": "C107", "title": "Ensemble forecast of BOP-DMD", "statement": "BOPDMD.forecast returns the forecast of the fitted model, and with bagging the mean and the variance of forecasts drawn with the spread of the bags: of variance 0 if the bags agree, and bounded if all bags are stable.", "quantifier": "all models, draws, times", "why_tests_cant": "the forecast is random", "anchors": ["pydmd/bopdmd.py:BOPDMD.forecast"]}
{"id": "C108", "title": "fit_econ of BOP-DMD", "statement": "fit_econ(s, V, t) with projection basis U gives what fit(U diag(s) V, t) gives.", "quantifier": "all bases, singular values, times, states of the instance", "why_tests_cant": "two code paths with their own checks, compared only on an example", "anchors": ["pydmd/bopdmd.py:BOPDMD.fit_econ", "pydmd/bopdmd.py:BOPDMD.fit", "pydmd/bopdmd.py:BOPDMD._initialize_alpha"]}
{"id": "C109", "title": "Simulations and predictions of HAVOK", "statement": "HAVOK.predict(forcing, time, V0) integrates dv/dt = Av + Bu from V0 at time[0] with the given forcing and returns the data at the times given; reconstructed_embeddings are the stored linear dynamics if these obey the model, and reconstructed_data have the shape of the snapshots.", "quantifier": "all fitted models, forcings, time vectors, initial conditions, delays and lags", "why_tests_cant": "the meaning of the first time depends on the convention of scipy's lsim, and tests use times that start at 0; shapes fail only at the smallest ranks", "anchors": ["pydmd/havok.py:HAVOK.predict", "pydmd/havok.py:HAVOK.reconstructed_embeddings", "pydmd/havok.py:HAVOK.reconstructed_data", "pydmd/havok.py:HAVOK._compute_embeddings", "pydmd/havok.py:HAVOK._embeddings_to_original"]}
{"id": "C110", "title": "Threshold of HAVOK", "statement": "HAVOK.compute_threshold with a float p between 0 and 1 gives a threshold beyond which a fraction of about p of the forcing lies, larger for smaller p; with an integer p it gives one of the intersections of the histogram with a fitted Gaussian.", "quantifier": "all histograms (counts and edges), all p", "why_tests_cant": "quantile properties over all histograms; one-sided forcings and uneven bins are not in the tests", "anchors": ["pydmd/havok.py:HAVOK.compute_threshold"]}
{"id": "C111", "title": "State of HAVOK after fit", "statement": "HAVOK.fit uses the time vector given, or 0, t, 2t, ... for a time step t; after success all attributes describe that fit, and a call that raises leaves the fitted model as it was.", "quantifier": "all parameters, shapes, time arguments, former states, outcomes of SVD and regression", "why_tests_cant": "every way to fail combined with every former state", "anchors": ["pydmd/havok.py:HAVOK.fit", "pydmd/havok.py:HAVOK.r", "pydmd/havok.py:HAVOK.operator"]}
{"id": "C112", "title": "Parametric DMD at new parameters", "statement": "reconstructed_data of ParametricDMD for parameters not seen in training has one block per parameter asked for; a block depends on that parameter only, and for interpolators that combine the training values linearly it is the same combination of the training forecasts.", "quantifier": "all training sets, forecasts, interpolators that treat parameters one by one, lists of new parameters", "why_tests_cant": "interpolation weights, forecasts and orders of parameters are arbitrary; tests compare a few values", "anchors": ["pydmd/paramdmd.py:ParametricDMD.parameters", "pydmd/paramdmd.py:ParametricDMD.reconstructed_data", "pydmd/paramdmd.py:ParametricDMD._interpolate_missing_modal_coefficients"]}
{"id": "C113", "title": "Frequencies and growth rates", "statement": "For data composed of exp((s + 2 pi i f) t) sampled with step dt, frequency is f (up to multiples of 1/dt, exactly f below 1/(2 dt)) and growth_rate is s; both describe the dynamics at all times. This holds for every class that has these accessors, and for time_window_frequency of MrDMD.", "quantifier": "all frequencies, growth rates, time steps, eigenvalues", "why_tests_cant": "aliasing, signs and units over all real numbers; tests look at lengths only", "anchors": ["pydmd/dmdbase.py:DMDBase.frequency", "pydmd/dmdbase.py:DMDBase.growth_rate", "pydmd/varprodmd.py:VarProDMD.frequency", "pydmd/varprodmd.py:VarProDMD.growth_rate", "pydmd/mrdmd.py:MrDMD.time_window_frequency", "pydmd/mrdmd.py:MrDMD.time_window_growth_rate"]}
{"id": "C114", "title": "The iteration of SpDMD solves the sparsity-promoting problem", "statement": "A point at which the ADMM iteration of SpDMD rests minimises the error of the reconstruction plus gamma times the sum of the moduli of the amplitudes.", "quantifier": "all modes, eigenvalues, snapshots, rho > 0, gamma >= 0, all amplitudes compared with", "why_tests_cant": "optimality against all complex amplitude vectors", "anchors": ["pydmd/spdmd.py:SpDMD._update", "pydmd/spdmd.py:SpDMD._update_beta", "pydmd/spdmd.py:soft_thresholding_operator"]}
{"id": "C115", "title": "Two-dimensional plots show the data where they are", "statement": "plot_snapshots_2D and plot_modes_2D draw the value of entry (i, j) of a two-dimensional snapshot or mode at the point (x_i, y_j), for the shape that the DMD stores and the documented order of storage.", "quantifier": "all shapes, snapshots, coordinates, orders", "why_tests_cant": "tests only check that the functions do not raise; square test data hide the mix-up", "anchors": ["pydmd/plotter.py:plot_modes_2D", "pydmd/plotter.py:plot_snapshots_2D"]}
{"id": "C116", "title": "plot_summary shows the fit it is given", "statement": "plot_summary highlights every mode asked for in one colour shared with its complex conjugate only, shows the share of the variance of every singular value, and draws the dynamics at the times they belong to.", "quantifier": "all lists of eigenvalues, indexes, singular values, time windows", "why_tests_cant": "pairing over all lists of eigenvalues, shares over all singular values; tests only check that nothing raises", "anchors": ["pydmd/plotter.py:plot_summary"]}
{"id": "C117", "title": "Plots of eigenvalues show all eigenvalues asked for", "statement": "plot_eigs chooses limits that contain every eigenvalue (in the narrow view with a margin of 0.05 and sides in ratio at most 8); plot_eigs_mrdmd draws the eigenvalues of the level and node asked for.", "quantifier": "all lists of eigenvalues, levels, nodes", "why_tests_cant": "limits over all sets of eigenvalues", "anchors": ["pydmd/plotter.py:plot_eigs", "pydmd/plotter.py:plot_eigs_mrdmd", "pydmd/plotter.py:_plot_limits", "pydmd/plotter.py:_enforce_ratio"]}
{"id": "C118", "title": "mrCOSTS fits every level to what the level before left", "statement": "After mrCOSTS.fit each level is a COSTS object fitted to the low frequency component of the level before (level 0 to the data) with the window, step, rank and global SVD flag of that level, and clustered with the number of components given for it or found by the sweep; fit works with the defaults and can be repeated.", "quantifier": "all data, lists of parameters, numbers of levels, sequences of fits", "why_tests_cant": "the loop over levels carries state; tests use one configuration and one fit", "anchors": ["pydmd/mrcosts.py:mrCOSTS.fit", "pydmd/mrcosts.py:mrCOSTS.__init__"]}
{"id": "C119", "title": "Global bands belong to the current fit", "statement": "global_cluster_omega clusters the interpolated eigenvalues of all levels of the latest fit, whatever clusterings came before, and the classes kept in the object are those returned.", "quantifier": "all sequences of fits and clusterings", "why_tests_cant": "depends on the history of the object", "anchors": ["pydmd/mrcosts.py:mrCOSTS.global_cluster_omega", "pydmd/mrcosts.py:mrCOSTS.multi_res_interp"]}
{"id": "C120", "title": "Saving and loading mrCOSTS is lossless", "statement": "to_netcdf followed by from_netcdf gives an object with the same levels in the same order and the same parameters, for any order of the file names.", "quantifier": "all lists of levels, file names, contents of the directory", "why_tests_cant": "over all sets of window lengths and file orders", "anchors": ["pydmd/mrcosts.py:mrCOSTS.to_netcdf", "pydmd/mrcosts.py:mrCOSTS.from_netcdf"]}
{"id": "C121", "title": "Sweeps return the best number of bands", "statement": "cluster_hyperparameter_sweep returns the first number of the range with the largest score; without a range the numbers from max(rank // 4, 2) to rank // 2 are compared; unknown score methods are rejected.", "quantifier": "all ranges, scores, ranks", "why_tests_cant": "argmax over all ranges and all scores", "anchors": ["pydmd/costs.py:COSTS.cluster_hyperparameter_sweep", "pydmd/mrcosts.py:mrCOSTS.global_cluster_hyperparameter_sweep"]}
{"id": "C122", "title": "Plots of one mrCOSTS level show the input of that level", "statement": "plot_local_error, plot_local_reconstructions, plot_local_scale_separation and plot_local_time_series compare a level with the data it was fitted to.", "quantifier": "all fits, levels, reconstruction arguments", "why_tests_cant": "over all fits and reconstruction arguments; tests do not look at what is drawn", "anchors": ["pydmd/mrcosts.py:mrCOSTS.plot_local_error", "pydmd/mrcosts.py:mrCOSTS._data_iterator"]}
{"id": "C123", "title": "Periods of COSTS are the periods of the oscillations", "statement": "COSTS.periods gives, for each eigenvalue outside the lowest band, the smallest time after which its oscillation repeats itself; without a fit or a clustering ValueError is raised.", "quantifier": "all frequencies and classes", "why_tests_cant": "for all real frequencies", "anchors": ["pydmd/costs.py:COSTS.periods"]}
{"id": "C124", "title": "plot_mode_uq shows every mode or one of each conjugate pair", "statement": "BOPDMD.plot_mode_uq draws each mode with its standard deviation directly below it; with plot_conjugate_pairs=False exactly one mode of each complex conjugate pair is drawn and all others; with delays the average over the delays is drawn.", "quantifier": "all numbers of modes, columns, delays, orders of eigenvalues", "why_tests_cant": "arrangement for all numbers of modes and columns; the selection depends on the eigenvalues", "anchors": ["pydmd/bopdmd.py:BOPDMD.plot_mode_uq"]}
{"id": "C125", "title": "HAVOK.plot_summary marks the active times", "statement": "HAVOK.plot_summary draws every time at which the forcing exceeds the threshold in red, joins active times at most min_jump_dist apart, and shows the true switches that fall inside the plot.", "quantifier": "all forcings, thresholds, jump distances, switch indexes", "why_tests_cant": "over all patterns of active times; tests only check that nothing raises", "anchors": ["pydmd/havok.py:HAVOK.plot_summary", "pydmd/havok.py:HAVOK._get_index_slices"]}
{"id": "C126", "title": "COSTS rounds the corners of its windows", "statement": "Before the fit of a window COSTS subtracts the mean and multiplies by weights between 0 and 1 that are symmetric, close to 1 in the middle of the window and small at its ends; a series of times with one time for each snapshot is accepted.", "quantifier": "all window lengths, sharpness, data", "why_tests_cant": "inequalities for all window lengths and real parameters", "anchors": ["pydmd/costs.py:COSTS.calculate_lv_kern", "pydmd/costs.py:COSTS.fit"]}
{"id": "C127", "title": "Wrapped DMDs can be used where DMDs can", "statement": "A PrePostProcessingDMD can be saved and loaded, indexed, given to MrDMD and to plot_summary like the DMD inside.", "quantifier": "all DMDs, numbers of wrappers, eigenvalues", "why_tests_cant": "over all stacks of wrappers", "anchors": ["pydmd/preprocessing/pre_post_processing.py:PrePostProcessingDMD", "pydmd/dmdbase.py:DMDBase.save", "pydmd/mrdmd.py:MrDMD._dmd_builder", "pydmd/plotter.py:plot_summary"]}
{"id": "C128", "title": "LANDO accepts the kernels it documents, and can analyse what it accepts", "statement": "The constructor of LANDO accepts every kernel function (and gradient) of the documented form and every parameter of pairwise_kernels, rejects everything else, and a fitted model can be analysed about a fixed point with the same parameters.", "quantifier": "all functions, parameters, numbers of features", "why_tests_cant": "over all callables and dimensions", "anchors": ["pydmd/lando.py:LANDO._test_kernel_inputs", "pydmd/lando.py:LANDO._test_kernel_functions", "pydmd/lando.py:LANDO.kernel_gradient"]}
{"id": "C129", "title": "Standard deviations of BOP-DMD belong to the modes shown", "statement": "After a bagged fit, plot_eig_uq draws around each eigenvalue a circle with the deviation of that eigenvalue, plot_mode_uq draws below each mode its own deviation, and forecast works, whatever modes are selected by modes_activation_bitmask or dmd[key].", "quantifier": "all fits, all sequences of selections and edits", "why_tests_cant": "over all sequences of selections; tests plot only unselected fits", "anchors": ["pydmd/bopdmd.py:BOPDMD.plot_eig_uq", "pydmd/bopdmd.py:BOPDMD.plot_mode_uq", "pydmd/bopdmd.py:BOPDMD.forecast", "pydmd/bopdmd.py:BOPDMD.eigenvalues_std"]}
{"id": "C130", "title": "BOPDMD checks its options", "statement": "BOPDMD rejects unknown variable projection options and values of wrong type with TypeError, warns about exactly the values that are not recommended, uses the documented defaults for all others, and accepts exactly the documented eigenvalue constraints.", "quantifier": "all option dictionaries, constraint sets and functions", "why_tests_cant": "over all dictionaries and functions", "anchors": ["pydmd/bopdmd.py:BOPDMDOperator._varpro_opts_warn", "pydmd/bopdmd.py:BOPDMDOperator.__init__", "pydmd/bopdmd.py:BOPDMD.__init__", "pydmd/bopdmd.py:BOPDMD._check_eig_constraints", "pydmd/bopdmd.py:BOPDMD.print_varpro_opts"]}
{"id": "C131", "title": "COSTS clusters the frequencies of the fitted eigenvalues", "statement": "cluster_omega puts every fitted eigenvalue into the band of its own transformed frequency, and nothing but fitted eigenvalues has an influence on the bands, also if windows have different ranks.", "quantifier": "all ranks of windows, eigenvalues, transformations, clustering methods", "why_tests_cant": "over all eigenvalues and ranks; the clustering is external", "anchors": ["pydmd/costs.py:COSTS.cluster_omega", "pydmd/costs.py:COSTS._cluster", "pydmd/costs.py:COSTS.transform_omega", "pydmd/costs.py:COSTS.fit"]}
{"id": "C132", "title": "Plots of COSTS show the decomposition of the data", "statement": "plot_scale_separation, plot_reconstructions and plot_time_series show data, bands and residual such that bands and residual add up to the data, with colour scales that contain the data; plot_omega_time_series shows each eigenvalue once in the colour of its band; plot_error returns figure and axes.", "quantifier": "all data, decompositions, numbers of bands, keyword dictionaries", "why_tests_cant": "what is drawn is not inspected by tests; over all data and sequences of calls", "anchors": ["pydmd/costs.py:COSTS.plot_scale_separation", "pydmd/costs.py:COSTS.plot_reconstructions", "pydmd/costs.py:COSTS.plot_time_series", "pydmd/costs.py:COSTS.plot_omega_time_series", "pydmd/costs.py:COSTS.plot_error"]}
{"id": "C133", "title": "Real data give conjugate eigenvalues and real reconstructions", "statement": "For real snapshots the eigenvalues of DMD come in conjugate pairs, so do modes and amplitudes, and reconstructed_data has no imaginary part, for all times and all selections of modes.", "quantifier": "all real data, ranks, options, times, selections", "why_tests_cant": "over all data; tests compare single data sets up to a tolerance", "anchors": ["pydmd/dmdoperator.py:DMDOperator.compute_operator", "pydmd/dmdbase.py:DMDBase.reconstructed_data", "pydmd/dmdbase.py:DMDBase._compute_amplitudes"]}
{"id": "C134", "title": "DMD does not depend on coordinates, order of snapshot pairs or units", "statement": "If the data are rotated, measured by permuted or additional silent sensors, given in another order of the pairs, or multiplied by a constant, DMD returns the same eigenvalues, the transformed modes, and the transformed reconstruction.", "quantifier": "all data, isometries, permutations, factors, options", "why_tests_cant": "over all data and all transformations", "anchors": ["pydmd/dmdoperator.py:DMDOperator.compute_operator", "pydmd/dmdoperator.py:DMDOperator._least_square_operator", "pydmd/utils.py:_svht"]}
{"id": "C135", "title": "Neutral settings give plain DMD", "statement": "tikhonov_regularization=0, equal rescaling factors, DMDc with zero control, and HankelDMD with d=1 give the eigenvalues, modes and reconstructions of DMD.", "quantifier": "all data, ranks, factors, windows, reconstruction methods", "why_tests_cant": "relations between two classes over all data", "anchors": ["pydmd/dmdoperator.py:DMDOperator", "pydmd/dmdc.py:DMDc", "pydmd/hankeldmd.py:HankelDMD", "pydmd/preprocessing/hankel.py:_HankelPrePostProcessing"]}
{"id": "C136", "title": "DMD finds exactly the eigenvalues in the data", "statement": "For snapshots that a linear system on independent vectors advances, DMD with all nonzero singular values returns exactly the eigenvalues of that system with multiplicities. For a sum of q exponentials with different eigenvalues and any nonzero coefficients, HankelDMD with d >= q delays and at least q pairs returns exactly these q eigenvalues.", "quantifier": "all numbers of sensors, modes, snapshots and delays, all eigenvalues and coefficients, every factorization", "why_tests_cant": "tests check a few signals; that no eigenvalue is missed or added for any signal needs a proof", "anchors": ["pydmd/dmdoperator.py:DMDOperator.compute_operator", "pydmd/hankeldmd.py:HankelDMD.fit", "pydmd/utils.py:pseudo_hankel_matrix"]}
{"id": "C137", "title": "The result of a fit is determined by the data", "statement": "Whatever singular vectors and eigenvectors the library chooses, a DMD fit gives the same eigenvalues, the same modes up to order and factors of modulus one, and the same reconstructions.", "quantifier": "all data, ranks, options, all choices of factors, all windows and selections", "why_tests_cant": "a test run sees only the one choice that the installed LAPACK makes", "anchors": ["pydmd/dmdoperator.py:DMDOperator.compute_operator", "pydmd/dmdbase.py:DMDBase.reconstructed_data"]}
{"id": "C138", "title": "The operators of BOP-DMD belong to its modes and eigenvalues", "statement": "After BOPDMD.fit the properties A and atilde have the fitted modes (projected modes) as eigenvectors for the fitted eigenvalues, atilde is A in the coordinates of the projection basis, and the forecasts solve x' = A x. Before a fit, and for A without compute_A, they raise ValueError.", "quantifier": "all numbers of sensors, basis vectors and modes, with and without projection, bagging and mode_prox, all amplitudes and times", "why_tests_cant": "relations between two stored matrices and all forecasts hold for all fits or not at all; tests compare shapes", "anchors": ["pydmd/bopdmd.py:BOPDMDOperator._single_trial_compute_operator", "pydmd/bopdmd.py:BOPDMDOperator.compute_operator", "pydmd/bopdmd.py:BOPDMD.A", "pydmd/bopdmd.py:BOPDMD.atilde"]}
{"id": "C139", "title": "A perfect fit of BOP-DMD is the truth", "statement": "For data that are sums of r exponentials, the error at the true eigenvalues is zero and the fitted modes are the true ones; conversely a fit with error zero to at least 2r equidistant samples consists of exactly the true eigenvalues (below the Nyquist frequency) and modes.", "quantifier": "all eigenvalues, modes, numbers of sensors and samples, all sampling times (equidistant for the converse)", "why_tests_cant": "uniqueness of the representation is a statement about all other candidates", "anchors": ["pydmd/bopdmd.py:BOPDMDOperator._variable_projection", "pydmd/bopdmd.py:BOPDMDOperator._exp_function"]}
{"id": "C140", "title": "Small changes of the data change the fit little", "statement": "For every tolerance there is a size of noise such that all fits to data with less noise have eigenvalues, modes (up to order and phase) and forecasts within the tolerance of those of the fit to the clean data. In particular the eigenvalues of noisy sums of exponentials converge to the exponents as the noise vanishes.", "quantifier": "all data, ranks and options; all perturbations; all choices of factors by the library", "why_tests_cant": "a limit over all perturbations cannot be run", "anchors": ["pydmd/dmdoperator.py:DMDOperator.compute_operator", "pydmd/dmd.py:DMD.fit"]}
{"id": "C141", "title": "LANDO learns every system that its kernel can represent", "statement": "If the snapshots come from a system whose right-hand side is linear in the features of the kernel (for the polynomial kernel: polynomials up to its degree), a LANDO model with dict_tol=0 agrees with the system at all points whose features the snapshots span. If no polynomial of the degree vanishes at all snapshots, the model is the system: predictions are its orbits and the linear part is its Jacobian. The same holds for online learning.", "quantifier": "all dimensions, degrees, positive coefficients, rescalings, systems and snapshots; any number of online updates", "why_tests_cant": "a statement about the learnt function at all points, for all systems of the class", "anchors": ["pydmd/lando.py:LANDO.fit", "pydmd/lando.py:LANDO.f", "pydmd/lando.py:LANDO.update", "pydmd/lando.py:LANDO.predict", "pydmd/lando.py:LANDO.analyze_fixed_point"]}
{"id": "C142", "title": "Larger gamma, more zero amplitudes", "statement": "The docstring of SpDMD says that increasing gamma results in a higher number of zero amplitudes: gamma=0 zeroes none, a large gamma zeroes all, and between the number does not decrease.", "quantifier": "all modes, eigenvalues, data, tolerances and numbers of iterations", "why_tests_cant": "monotonicity over a continuum of parameters of an iteration", "anchors": ["pydmd/spdmd.py:SpDMD._find_zero_amplitudes", "pydmd/spdmd.py:SpDMD._update_beta", "pydmd/spdmd.py:soft_thresholding_operator"]}
{"id": "C143", "title": "Options of DMDc", "statement": "The options of DMDc mean what the docstrings say: with a known B and noise-free data, tlsq_rank does not change the operator; with lag l the frequencies are those of the signal; a changed dmd_time dt gives the response of the system to the held controls.", "quantifier": "all systems, controls, snapshots, ranks and lags", "why_tests_cant": "the options act on the time axis and on the projection for every system; a test sees one", "anchors": ["pydmd/dmdc.py:DMDc.fit", "pydmd/dmdc.py:DMDc.reconstructed_data", "pydmd/dmdc.py:DMDBKnownOperator.compute_operator", "pydmd/dmdbase.py:DMDBase.frequency"]}
{"id": "C144", "title": "opt=True gives optimal amplitudes in every class", "statement": "With opt=True every class derived from DMDBase sets amplitudes that minimise the distance between the reconstruction and the snapshots.", "quantifier": "all classes, snapshots, ranks, modes and eigenvalues", "why_tests_cant": "optimality over all amplitude vectors, for each class", "anchors": ["pydmd/dmdbase.py:DMDBase._compute_amplitudes", "pydmd/dmdbase.py:DMDBase._optimal_dmd_matrices", "pydmd/subspacedmd.py:SubspaceDMD.__init__", "pydmd/dmdc.py:DMDc.__init__"]}
{"id": "C145", "title": "PiDMD recovers an operator of the declared structure from noise-free data", "statement": "If Y = B X with B in the declared manifold and enough snapshots to determine B, compute_operator returns B: unitary, symmetric, skew-symmetric, triangular, diagonal and banded, symmetric tridiagonal, Toeplitz, Hankel, circulant and their block versions.", "quantifier": "all sizes, manifolds, matrices of the manifold and snapshots", "why_tests_cant": "one statement about all matrices of each manifold", "anchors": ["pydmd/pidmd.py:PiDMDOperator.compute_operator", "pydmd/pidmd_utils.py:compute_unitary", "pydmd/pidmd_utils.py:compute_symmetric", "pydmd/pidmd_utils.py:compute_uppertriangular", "pydmd/pidmd_utils.py:compute_diagonal", "pydmd/pidmd_utils.py:compute_symtridiagonal", "pydmd/pidmd_utils.py:compute_toeplitz", "pydmd/pidmd_utils.py:compute_circulant", "pydmd/pidmd_utils.py:compute_BCCB"]}
{"id": "C146", "title": "MrDMD separates the time scales of the data", "statement": "For data that are a sum of exponentials seen by every window, each level of MrDMD takes exactly the components slower than its threshold that no earlier level took, the residual keeps the faster ones, and the reconstruction is the sum of the components taken.", "quantifier": "all signals, numbers of levels, max_cycles and snapshots whose windows split evenly", "why_tests_cant": "the claim is about every signal and every node of the tree; a test sees one signal", "anchors": ["pydmd/mrdmd.py:MrDMD.fit", "pydmd/mrdmd.py:MrDMD.reconstructed_data", "pydmd/dmd_modes_tuner.py:select_modes"]}
{"id": "C147", "title": "Operators, modes and eigenvalues of PiDMD belong together", "statement": "After a PiDMD fit the modes are eigenvectors of the operator A for the eigenvalues, the reduced operator is A in the coordinates of the POD basis, and compute_A decides only whether A is stored: modes, eigenvalues and reconstruction are the same without.", "quantifier": "all sizes, manifolds, ranks and data", "why_tests_cant": "relations between four attributes for all data; a test compares numbers of one fit", "anchors": ["pydmd/pidmd.py:PiDMDOperator.compute_operator", "pydmd/pidmd.py:PiDMDOperator.A", "pydmd/pidmd_utils.py:compute_diagonal", "pydmd/pidmd_utils.py:compute_circulant"]}
{"id": "C148", "title": "Signals sampled in physical time", "statement": "A sum of exponentials sampled at t0, t0+h, ... below the Nyquist limit and fitted with DMD, with the time dictionaries set to the physical times, has the frequencies of the signal in physical units; the reconstruction over any time window, finer, coarser or beyond the data, is the signal at these times; two fits of different samples of one signal reconstruct the same.", "quantifier": "all signals, sampling steps and offsets, numbers of snapshots, values of opt, windows and selections of modes", "why_tests_cant": "the claim is about all real signals and windows; a test samples a few", "anchors": ["pydmd/dmdbase.py:DMDBase.dynamics", "pydmd/dmdbase.py:DMDBase.reconstructed_data", "pydmd/dmdbase.py:DMDBase.frequency", "pydmd/dmd.py:DMD.fit"]}
{"id": "C149", "title": "A fit that raises leaves no mixture of old and new results", "statement": "When fit raises on an object that was fitted before, everything that can be read afterwards belongs to one fit: either all of the results are those of the previous data, or the object says that it is not fitted.", "quantifier": "all data, previous states, options and points of failure in DMD, VarProDMD, HankelDMD, DMDc and PrePostProcessingDMD", "why_tests_cant": "tests of errors check that an exception is raised, not what is left in the object for every possible failure", "anchors": ["pydmd/dmd.py:DMD.fit", "pydmd/varprodmd.py:VarProDMD.fit", "pydmd/hankeldmd.py:HankelDMD.fit", "pydmd/dmdc.py:DMDc.fit", "pydmd/preprocessing/pre_post_processing.py:PrePostProcessingDMD.fit"]}
{"id": "C150", "title": "Coordinates and units in the other classes", "statement": "Rotating the coordinates of the snapshots rotates the modes and leaves the eigenvalues in OptDMD, DMDc, PiDMD (unitary, symmetric, skew-symmetric), SubspaceDMD and EDMD with a rotation-invariant kernel. Changing the unit of the data (OptDMD) or of the control input (DMDc) changes neither eigenvalues nor modes.", "quantifier": "all isometries, data, ranks, sizes and scale factors", "why_tests_cant": "the claim relates two fits for every rotation or unit; tests fit one data set in one unit", "anchors": ["pydmd/optdmd.py:OptDMD.fit", "pydmd/optdmd.py:pinv_diag", "pydmd/dmdc.py:DMDc.fit", "pydmd/pidmd_utils.py:compute_unitary", "pydmd/pidmd_utils.py:compute_symmetric", "pydmd/subspacedmd.py:SubspaceDMD.fit", "pydmd/edmd.py:EDMD.fit"]}
{"id": "C151", "title": "A larger svd_rank never predicts the snapshot pairs worse", "statement": "With projected modes, predict of DMD applied to the snapshots X is at least as close to Y for a larger svd_rank, with or without Tikhonov regularisation, and the rank used grows with svd_rank; the same holds for OptDMD.", "quantifier": "all data, sizes, ranks, regularisations and results of the library routines", "why_tests_cant": "the claim compares two fits for every pair of ranks and all data; tests fit one rank", "anchors": ["pydmd/dmd.py:DMD.predict", "pydmd/dmd.py:DMD.fit", "pydmd/dmdoperator.py:DMDOperator.compute_operator", "pydmd/optdmd.py:OptDMD.predict", "pydmd/utils.py:compute_svd"]}
{"id": "C152", "title": "Origin and unit of time in BOP-DMD", "statement": "A fit of BOPDMD does not depend on where the clock starts nor on the unit in which time is measured. If the times of the snapshots are moved by tau, then the fitted eigenvalues are the same and the forecast at t + tau is the forecast at t before. If the times are multiplied by c, then the eigenvalues are divided by c and the forecast at c t is the forecast at t.", "quantifier": "for all data, times, initial guesses, constraints, options of the variable projection, tau, c > 0", "why_tests_cant": "Tests use one clock with one unit. The statement concerns two complete runs of the iteration on corresponding inputs, with any number of steps.", "anchors": ["pydmd/bopdmd.py:BOPDMDOperator._variable_projection", "pydmd/bopdmd.py:BOPDMDOperator._single_trial_compute_operator", "pydmd/bopdmd.py:BOPDMDOperator._push_eigenvalues", "pydmd/bopdmd.py:BOPDMD._initialize_alpha", "pydmd/bopdmd.py:BOPDMD.forecast"]}
{"id": "C153", "title": "Initial guess of BOP-DMD", "statement": "For noise-free data made of q exponentials, sampled uniformly with step h, BOPDMD starts its iteration close to the truth when init_alpha is not given: the guess has q eigenvalues, each within |lambda|^3 h^2 / 2 of the true one for |lambda| h <= 1, and it decays, grows or oscillates as the signal does.", "quantifier": "for all modes, eigenvalues, uniform time grids, numbers of snapshots above q", "why_tests_cant": "Tests compare one guess with a tolerance. The order of accuracy and the preserved stability are statements about all signals and steps.", "anchors": ["pydmd/bopdmd.py:BOPDMD._initialize_alpha", "pydmd/bopdmd.py:BOPDMDOperator._push_eigenvalues"]}
{"id": "C154", "title": "BOP-DMD of real data", "statement": "BOPDMD fitted to real data with its own initial guess returns eigenvalues and modes in conjugate pairs with equal amplitudes, and its forecast is real at all times. The constraints 'stable' and 'imag' keep the pairs.", "quantifier": "for all real data, times, numbers of iterations, options of the variable projection; all initial guesses in conjugate pairs; while the exponentials at the accepted points are independent on the time grid", "why_tests_cant": "The symmetry must survive every step of the iteration, accepted or rejected; tests look at one final result up to a tolerance.", "anchors": ["pydmd/bopdmd.py:BOPDMDOperator._variable_projection", "pydmd/bopdmd.py:BOPDMDOperator._push_eigenvalues", "pydmd/bopdmd.py:BOPDMD._initialize_alpha", "pydmd/bopdmd.py:BOPDMD.forecast"]}
{"id": "C155", "title": "Order of the snapshots, coordinates and unit of the data in BOP-DMD", "statement": "BOPDMD fitted from a given initial guess returns the same eigenvalues, and the same forecast, when the snapshots are given in another order with their times, or in other orthonormal coordinates (also of a larger space). Data in another unit give the same eigenvalues and the forecast in that unit.", "quantifier": "for all data, times, permutations of the snapshots, matrices with orthonormal rows, units, options, initial guesses, numbers of iterations; while the exponentials at the accepted points are independent on the time grid", "why_tests_cant": "The run is an iteration with accepted and rejected steps and clipped scalings; tests fix one order, one basis and one unit.", "anchors": ["pydmd/bopdmd.py:BOPDMDOperator._variable_projection", "pydmd/bopdmd.py:BOPDMD.forecast"]}
{"id": "C156", "title": "Forward-backward DMD treats both directions of time alike", "statement": "FbDMD (or DMD with forward_backward=True) fitted to reversed snapshot pairs, fit(Y, X), gives the reciprocals of the eigenvalues of fit(X, Y), with the same eigenvectors of the reduced operator, also for noisy data.", "quantifier": "for all data X, Y of all shapes, ranks, with or without noise, exact or projected modes, with or without Tikhonov regularization", "why_tests_cant": "Tests use a few noisy signals and compare with the true eigenvalues; the symmetry holds exactly, for any data.", "anchors": ["pydmd/dmdoperator.py:DMDOperator.compute_operator", "pydmd/dmdoperator.py:DMDOperator._least_square_operator", "pydmd/fbdmd.py:FbDMD"]}
{"id": "C157", "title": "More Tikhonov regularization, smaller operators and larger errors", "statement": "With a larger tikhonov_regularization the reduced operator and the predictions of DMD do not grow, the eigenvalues do not grow in modulus, and the error of the prediction of the snapshot pairs does not shrink; no regularization counts as the weakest.", "quantifier": "for all data, ranks, values of tikhonov_regularization", "why_tests_cant": "The comparison is between two fits, for all data; tests check one value of the parameter.", "anchors": ["pydmd/dmdoperator.py:DMDOperator._least_square_operator", "pydmd/dmdoperator.py:DMDOperator._compute_modes", "pydmd/dmd.py:DMD.predict"]}
{"id": "C158", "title": "PiDMD of real snapshots gives a real operator", "statement": "For real snapshots the operator that PiDMD fits is real, so that its eigenvalues come in conjugate pairs and the reconstruction is real, for every manifold.", "quantifier": "for all real snapshots, all manifolds, ranks, block shapes and options; all choices the library makes among equal weights", "why_tests_cant": "the choice of the frequencies that are kept is made by argpartition among equal weights; tests use few sizes and do not look at imaginary parts", "anchors": ["pydmd/pidmd_utils.py:compute_circulant", "pydmd/pidmd_utils.py:compute_toeplitz", "pydmd/pidmd_utils.py:compute_BC", "pydmd/pidmd_utils.py:compute_BCCB", "pydmd/pidmd_utils.py:compute_diagonal", "pydmd/pidmd_utils.py:compute_symmetric", "pydmd/pidmd_utils.py:compute_unitary", "pydmd/pidmd_utils.py:compute_uppertriangular"]}
{"id": "C159", "title": "SpDMD of real snapshots keeps or discards conjugate modes together", "statement": "For real snapshots SpDMD discards a mode if and only if it discards the conjugate mode, gives conjugate amplitudes to conjugate modes, and so has a real reconstruction.", "quantifier": "for all real snapshots, all modes and eigenvalues in conjugate pairs, all parameters and all numbers of iterations", "why_tests_cant": "holds for every iterate of a loop whose length depends on the data; tests look at the number of zero amplitudes only", "anchors": ["pydmd/spdmd.py:SpDMD._update", "pydmd/spdmd.py:SpDMD._find_zero_amplitudes", "pydmd/spdmd.py:SpDMD._optimal_amplitudes"]}
{"id": "C160", "title": "SpDMD does not depend on coordinates, order, normalization and units", "statement": "The modes that SpDMD selects, and the product of each mode with its amplitude, do not depend on orthonormal coordinates, on the order of the modes and on the phase of the eigenvectors; with gamma in the unit of the data they do not depend on the unit either.", "quantifier": "for all snapshots, modes, eigenvalues, parameters, all matrices with orthonormal columns, all orders, all phases", "why_tests_cant": "relates two runs of an iteration whose number of steps depends on the data", "anchors": ["pydmd/spdmd.py:soft_thresholding_operator", "pydmd/spdmd.py:SpDMD._update", "pydmd/spdmd.py:SpDMD._find_zero_amplitudes", "pydmd/spdmd.py:SpDMD._optimal_amplitudes"]}
{"id": "C161", "title": "PiDMD forecasts keep what the manifold promises", "statement": "With a unitary manifold all eigenvalues of PiDMD lie on the unit circle and the norm of the reconstruction is the same at all times, also between, before and after the snapshots and for every selection of modes; with symmetric and skew-symmetric manifolds the eigenvalues are real, respectively imaginary; modes of different eigenvalues are orthogonal. This holds for the circulant versions too.", "quantifier": "for all data, ranks, amplitudes, selections of modes, time windows and opt", "why_tests_cant": "about all times and selections; tests compare eigenvalues of a few fits", "anchors": ["pydmd/pidmd_utils.py:compute_unitary", "pydmd/pidmd_utils.py:compute_symmetric", "pydmd/pidmd_utils.py:compute_circulant", "pydmd/pidmd.py:PiDMDOperator.compute_operator", "pydmd/dmdbase.py:DMDBase.reconstructed_data"]}
{"id": "C162", "title": "Origin and unit of time in VarProDMD", "statement": "If the same snapshots are recorded with all times shifted by a constant, VarProDMD returns the same exponents, whatever the optimizer does with the residuals and Jacobians it is given, and forecasts at shifted times are the same. In another unit of time the exponents are those in that unit.", "quantifier": "for all data, times, shifts, units, projections, ranks, optimizers and numbers of steps", "why_tests_cant": "about all optimizers and shifts; tests use one grid of times and one optimizer", "anchors": ["pydmd/varprodmd.py:_compute_dmd_rho", "pydmd/varprodmd.py:_compute_dmd_jac", "pydmd/varprodmd.py:_compute_dmd_varpro", "pydmd/varprodmd.py:compute_varprodmd_any", "pydmd/varprodmd.py:_varpro_preprocessing"]}
{"id": "C163", "title": "A fitted instance does not share memory with its caller", "statement": "fit leaves the arrays of the caller as they are, and what the caller writes into them after the fit changes nothing in the fitted instance: its snapshots, its times, reconstructed_data and eigenfunctions. The snapshots of a leaf of MrDMD are the ones it was fitted to.", "quantifier": "for all inputs (matrices, arrays of more dimensions, lists), all later writes of the caller, all numbers of levels and all leaf reconstructions", "why_tests_cant": "about all sequences of writes after a fit; tests do not reuse their arrays", "anchors": ["pydmd/snapshots.py:Snapshots._unroll_space_dimensions", "pydmd/mrdmd.py:MrDMD.fit", "pydmd/dmdc.py:DMDc.reconstructed_data", "pydmd/edmd.py:EDMD.eigenfunctions", "pydmd/bopdmd.py:BOPDMD.fit_econ", "pydmd/varprodmd.py:VarProDMD.fit", "pydmd/havok.py:HAVOK.fit"]}
{"id": "C164", "title": "Real data in DMDc, OptDMD, EDMD, SubspaceDMD and CDMD", "statement": "Fitted to real data, these classes find eigenvalues that come in conjugate pairs and modes (for EDMD also eigenfunctions) that are conjugate for conjugate eigenvectors; the reconstruction of DMDc with real controls and the predictions of OptDMD with factorization=svd are real, and the matrix B that DMDc finds is real.", "quantifier": "for all real snapshots, controls, compression matrices and kernels, all sizes and ranks, all windows of time", "why_tests_cant": "about all real data; tests compare a few reconstructions", "anchors": ["pydmd/dmdc.py:DMDc.reconstructed_data", "pydmd/dmdc.py:DMDBUnknownOperator.compute_operator", "pydmd/optdmd.py:DMDOptOperator.compute_operator", "pydmd/optdmd.py:pinv_diag", "pydmd/edmd.py:EDMD.fit", "pydmd/subspacedmd.py:SubspaceDMDOperator.compute_operator", "pydmd/cdmd.py:CDMD._compress_snapshots"]}
{"id": "C165", "title": "Parametric DMD does not depend on the order of the training parameters", "statement": "If the training parameters of a ParametricDMD, their snapshots and (partitioned method) the DMDs of the partition are given in another order, then fit succeeds in both orders and reconstructed_data is the same for every forecast window and every list of new parameters. The first DMD of the partition, which serves as reference for the window, may be a different one. For the monolithic method the DMD class must not depend on the order of the rows of its data.", "quantifier": "all numbers of training parameters, space points and instants; all permutations; all DMD classes, PODs and interpolators with the stated behaviour; all windows; all new parameters", "why_tests_cant": "a test tries one permutation of a few parameters with one class of DMD", "anchors": ["pydmd/paramdmd.py:ParametricDMD.fit", "pydmd/paramdmd.py:ParametricDMD.reconstructed_data", "pydmd/paramdmd.py:ParametricDMD._predict_modal_coefficients", "pydmd/paramdmd.py:ParametricDMD._interpolate_missing_modal_coefficients"]}
{"id": "C166", "title": "Simulations of HAVOK solve the forced equation", "statement": "HAVOK.predict and reconstructed_embeddings simulate dv/dt = A v + B u, where the forcing u is interpolated linearly between the given times: if w is a solution with that forcing, the simulation started in w(t_0) returns w at all the times given, and predict returns Re(U diag(s) w^H) at these times. In particular, if the embeddings found by fit are such a solution, reconstructed_embeddings returns them.", "quantifier": "all numbers of linear coordinates and forcing terms, all A, B, forcings, time steps, delays and lags", "why_tests_cant": "tests compare with the data to a tolerance; that a numerical scheme is exact for every system and every forcing cannot be sampled", "anchors": ["pydmd/havok.py:HAVOK.predict", "pydmd/havok.py:HAVOK.reconstructed_embeddings", "pydmd/havok.py:HAVOK._compute_embeddings"]}
{"id": "C167", "title": "HAVOK is determined by the data; signs and units", "statement": "If the retained singular values of the Hankel matrix are distinct, two fits of HAVOK on the same data agree, whatever decomposition the SVD routine returns and whichever value lstsq has: singular values, eigenvalues (up to order) and reconstructed_data are the same; embeddings, singular vectors and operator differ by signs of the coordinates only, and predict with the forcing in the signs of the fit is the same. If times are given in another unit, operator and eigenvalues scale inversely and the reconstruction is the same; if the data are multiplied by a number, operator, eigenvalues and embeddings do not change and the reconstruction is multiplied by it.", "quantifier": "all Hankel matrices, ranks, numbers of forcing terms, delays, lags, times, forcings and decompositions", "why_tests_cant": "a test sees the one decomposition that its LAPACK returns; that every other choice of signs would give the same model is a statement over decompositions that never occur in the test", "anchors": ["pydmd/havok.py:HAVOK.fit", "pydmd/havok.py:HAVOK.predict", "pydmd/havok.py:HAVOK.reconstructed_data", "pydmd/havok.py:HAVOK.eigs"]}
{"id": "C168", "title": "LANDO does not depend on coordinates, units or order of the snapshots", "statement": "The model f learnt by LANDO and its linear part about any point do not depend on how the data are presented: rotating or permuting the components of the snapshots, measuring them in other units, or parsing the snapshot pairs in another order (which permute=True draws at random), in one go or online, gives the same model written in the new coordinates.", "quantifier": "all kernels with nonnegative coefficients, tolerances, rescalings, snapshots, orthogonal matrices, permutations and units", "why_tests_cant": "a test compares a few fits with tolerances; equality of the models at all points for all orders and rotations is a statement about the dictionary learning as a whole", "anchors": ["pydmd/lando.py:LANDO.fit", "pydmd/lando.py:LANDO.f", "pydmd/lando.py:LANDO.linear", "pydmd/lando.py:LANDO.update", "pydmd/lando.py:LANDOOperator.compute_operator"]}
{"id": "C169", "title": "Units of single channels and redundant channels do not matter for DMD", "statement": "DMD of the snapshots B x instead of x, where x can be recovered linearly from B x for the data at hand (other units of single channels, sums and differences of channels, added or removed redundant channels), has the same eigenvalues, B times the modes, and B times the reconstruction and forecast.", "quantifier": "all snapshot matrices, changes of variables B, ranks, exact and projected modes, mode selections and time windows", "why_tests_cant": "a test compares a few fits with tolerances; the claim is about all changes of variables and all factorizations numpy may return, and the cases in which it fails need not show on examples", "anchors": ["pydmd/dmdoperator.py:DMDOperator.compute_operator", "pydmd/dmdoperator.py:DMDOperator._least_square_operator", "pydmd/dmdoperator.py:DMDOperator._compute_modes", "pydmd/dmdbase.py:DMDBase.reconstructed_data", "pydmd/dmdbase.py:DMDBase._compute_amplitudes"]}
{"id": "C170", "title": "The objects handed to ParametricDMD", "statement": "A ParametricDMD keeps the DMD instances and the POD it is given, not copies. Its results are determined by its own fits: fitting and reading other ParametricDMDs has no effect on it, a fit that raises leaves the previous fit in place, and training_modal_coefficients are the coefficients of the last fit (RuntimeError for light=True and before a fit).", "quantifier": "all numbers of parameters, data, DMD classes (as parameters with fit, time dictionaries and reconstruction), PODs, ways in which the given objects coincide", "why_tests_cant": "tests build every instance with fresh objects; the claim is about all ways in which objects coincide and all states left by fits that raise", "anchors": ["pydmd/paramdmd.py:ParametricDMD.__init__", "pydmd/paramdmd.py:ParametricDMD.fit", "pydmd/paramdmd.py:ParametricDMD._predict_modal_coefficients", "pydmd/paramdmd.py:ParametricDMD.reconstructed_data", "pydmd/paramdmd.py:ParametricDMD.training_modal_coefficients"]}
{"id": "C171", "title": "Constant backgrounds and the origin of time in COSTS", "statement": "Adding a constant to every variable of the data adds this constant to the low frequency component and the global reconstruction of COSTS and changes nothing else: neither modes, eigenvalues and amplitudes of any window nor the higher bands. Counting the times from another origin does not change the bands, and the bands are put together at the times the windows were fitted at.", "quantifier": "all data, backgrounds, times, window lengths, steps, ranks and options of the windows; BOPDMD, SVD and k-means as parameters", "why_tests_cant": "a test compares one decomposition with and without a background up to tolerances; the claim is about all data and options and about every window and band at once", "anchors": ["pydmd/costs.py:COSTS.fit", "pydmd/costs.py:COSTS._build_proj_basis", "pydmd/costs.py:COSTS.cluster_omega", "pydmd/costs.py:COSTS.scale_reconstruction", "pydmd/costs.py:COSTS.scale_separation"]}
{"id": "C172", "title": "VarProDMD in other coordinates and units of the data", "statement": "Rotate the snapshots, reorder the sensors or add sensors that record nothing, and fit VarProDMD again: the exponents and amplitudes are the same, the modes and the forecasts at all times are those of the original fit in the new coordinates. With use_proj=True this holds for every optimizer; with use_proj=False for every optimizer that only uses lengths and angles of the residuals and of the columns of the Jacobian. The unit of the data should not matter either: the same exponents and modes, the amplitudes and forecasts in the new unit. This holds for an optimizer without absolute tolerances. It is refuted for least_squares with the default gtol: for all data there is a unit in which the initial guess is returned as the exponents.", "quantifier": "all data, times, ranks, truncations, selections of snapshots, optimizers, numbers of steps, matrices with orthonormal columns, units, forecast times", "why_tests_cant": "Tests fit one data set in one set of coordinates and compare to a fixed accuracy; the claim relates two fits for all data and all optimizers.", "anchors": ["pydmd/varprodmd.py:compute_varprodmd_any", "pydmd/varprodmd.py:_varpro_preprocessing", "pydmd/varprodmd.py:_compute_dmd_rho", "pydmd/varprodmd.py:_compute_dmd_jac", "pydmd/varprodmd.py:_compute_dmd_ev", "pydmd/varprodmd.py:OPT_DEF_ARGS"]}
{"id": "C173", "title": "ParametricDMD in other coordinates and units", "statement": "Rotate all training snapshots of a ParametricDMD, reorder the sensors or add sensors that record nothing: fit has the same outcome, and reconstructed_data for every forecast window and every list of new parameters is that of the original fit in the new coordinates, for the partitioned and the monolithic method, every DMD class and every interpolator. In another unit of the snapshots it is that of the original fit in the new unit, for DMD classes and interpolators that do not depend on the unit.", "quantifier": "all snapshots, parameters, DMD classes, interpolators, ranks of the POD, matrices with orthonormal columns, units, windows and lists of new parameters", "why_tests_cant": "Tests fit one set of snapshots; the claim relates two fits for all data and all classes.", "anchors": ["pydmd/paramdmd.py:ParametricDMD.fit", "pydmd/paramdmd.py:ParametricDMD.reconstructed_data", "pydmd/paramdmd.py:ParametricDMD._predict_modal_coefficients", "pydmd/paramdmd.py:ParametricDMD._interpolate_missing_modal_coefficients"]}
{"id": "C174", "title": "The arrays of COSTS are the fits of its windows", "statement": "After COSTS.fit there is one entry of the arrays for each window. With a local SVD it is what a new BOPDMD with the same options finds on the centred, tapered data of that window alone; with a global SVD all windows share the rank, the basis computed from all the data and the guess. Unused places are zero, and the mean and times of the window are stored. fit succeeds exactly if every window succeeds with no more modes than places, and raises ValueError for windows longer than the data, for odd or too large ranks, and for too many modes.", "quantifier": "all data, times, window lengths, steps, ranks, options and results of the DMD on the windows", "why_tests_cant": "over all data, windows and results of the inner DMD", "anchors": ["pydmd/costs.py:COSTS.fit", "pydmd/costs.py:COSTS._build_proj_basis"]}
{"id": "C175", "title": "Unit of the data and order of the sensors in COSTS", "statement": "Record the data in another unit, or with the sensors in another order, and fit COSTS again: the same exceptions, frequencies and clusters, and all bands of the scale reconstruction are those of the original fit in the new unit and order, for local and global SVD and all choices of initial guesses.", "quantifier": "all data, units, permutations of the sensors, windows, ranks, options, time steps and bands", "why_tests_cant": "over all data, units and permutations", "anchors": ["pydmd/costs.py:COSTS.fit", "pydmd/costs.py:COSTS.cluster_omega", "pydmd/costs.py:COSTS.scale_reconstruction"]}
{"id": "C176", "title": "Unit of time in COSTS", "statement": "Give the times of the snapshots in another unit and fit COSTS again: the same exceptions, modes, amplitudes and means, frequencies in the new unit, and the same bands of the scale reconstruction, for every transformation of the frequencies before clustering.", "quantifier": "all data, times, positive units, windows, ranks, options, transformations and bands", "why_tests_cant": "over all data, times and units", "anchors": ["pydmd/costs.py:COSTS.fit", "pydmd/costs.py:COSTS.cluster_omega", "pydmd/costs.py:COSTS.transform_omega", "pydmd/costs.py:COSTS.scale_reconstruction"]}
{"id": "C177", "title": "Units, order of the sensors and origin of time in mrCOSTS", "statement": "Fit mrCOSTS again with the data in another unit, the sensors in another order, the times in another unit or from another origin: the same exceptions, the same numbers of clusters (given or found by the sweep), and on every level the bands of the original fit in the new unit and order.", "quantifier": "all data, units, permutations of the sensors, times, numbers of levels, windows, steps, ranks and options", "why_tests_cant": "over all data, units, permutations and numbers of levels", "anchors": ["pydmd/mrcosts.py:mrCOSTS.fit", "pydmd/costs.py:COSTS.fit", "pydmd/costs.py:COSTS.cluster_omega", "pydmd/costs.py:COSTS.cluster_hyperparameter_sweep", "pydmd/costs.py:COSTS.scale_separation"]}
{"id": "C178", "title": "Constant backgrounds in mrCOSTS", "statement": "Add a constant to each variable of the data of mrCOSTS: the same exceptions, numbers of clusters, modes, frequencies and amplitudes on every level; the constant is handed on in the low frequency band of each level, ends in that of the last one, and is in no other band.", "quantifier": "all data, constants, times, numbers of levels, windows, steps, ranks and numbers of clusters", "why_tests_cant": "over all data, constants and numbers of levels", "anchors": ["pydmd/mrcosts.py:mrCOSTS.fit", "pydmd/costs.py:COSTS.fit", "pydmd/costs.py:COSTS.scale_reconstruction", "pydmd/costs.py:COSTS.scale_separation"]}
{"id": "C179", "title": "Causality, superposition and restarts in DMDc", "statement": "The response DMDc.reconstructed_data(control_input) is causal: two control inputs that agree in their first k columns give data that agree in the first lag + k columns. It is affine in the control: the response to a*u + b*v with a + b = 1 is a times the response to u plus b times the response to v, and it raises nothing if these two do not. A response can be restarted: from the columns k, ..., k + lag - 1 of a response and the remaining controls the remaining columns are obtained.", "quantifier": "all modes, eigenvalues, matrices B, snapshots, lags, time windows, control inputs, k, a and b", "why_tests_cant": "over all control inputs and all lengths", "anchors": ["pydmd/dmdc.py:DMDc.reconstructed_data"]}
