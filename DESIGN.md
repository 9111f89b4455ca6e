# Formal model of PyDMD in Lean 4: design

## 1. Approach

`/verif/lean/Verif/Model/*.lean` holds executable or algebraic models of the
functions of PyDMD, one file per area, each definition citing the file and lines
it mirrors. `/verif/lean/Verif/Spec/*.lean` (or a `Spec` section in the property
file) holds the small independent vocabulary in which properties are stated.
`/verif/lean/Verif/Props/*.lean` holds the property theorems only, named
`Cnn_...`, with a non-trivial satisfiability example beside each one. Helper
lemmas live in `/verif/lean/Verif/Lemmas/*.lean`.

Two styles of model are used.

* **Bookkeeping code** (masks, time dictionaries, slices, windows, trees, state of
  an instance, loops): shallow functional transcription branch by branch, on
  `List`, `Nat`, `Int`, `ℚ`, `Option`, structures. Exceptions are values
  (`Except PyErr α`); methods that mutate an object are functions
  `State → … → Except PyErr _ × State`, so "the object is unchanged by a failing
  call" can be stated.
* **Linear algebra** (reduced operator, modes, amplitudes, projections,
  manifolds): Mathlib `Matrix` over ℂ or ℝ (or an arbitrary field), with the
  numpy/scipy factorizations as *parameters* constrained by their specification
  (section 3).

Floating point is idealised to exact real/complex/rational arithmetic everywhere.
Where this matters the claim is labelled.

A property the unchanged code violates is handled as follows: a theorem
`Cnn_..._false` exhibits a concrete witness on the faithful model, a theorem
`Cnn_..._partial` proves what does hold, and section 5 records the disagreement.

## 2. Trusted base

* Lean 4.33.0's kernel and the Mathlib build installed with it.
* Axioms: at most `propext`, `Classical.choice`, `Quot.sound` for every property
  theorem (checked with `#print axioms`, see section 6). No `sorry`, no own
  axioms, no `native_decide`.
* The reading of the Python source: the models were transcribed by hand, nothing
  is extracted. Each definition cites its lines so that it can be compared.
* Python/numpy semantics that the models rely on: list/array slicing and negative
  indexes, boolean-mask indexing (reads copy, writes scatter), `np.arange`,
  `np.searchsorted`, `np.array_split`, `np.argsort`, integer floor division,
  truthiness of numbers and `None`.
* Assumed specification of external routines, section 3.

### Which parts of the code are modelled

Every module of `/repo/pydmd` has a model. Left out everywhere: drawing with matplotlib (only what is drawn is modelled: values,
indexes, times, shapes, checks), log messages and warnings, docstrings, floating-point rounding, dtypes other than real or
complex, speed and memory.

| file of `/repo/pydmd` | models (`lean/Verif/Model`) | left out |
|---|---|---|
| `dmdbase.py` | Bitmask, Time, TimeDict, Snapshots, Spectrum, Operator, OptAmps, Refit, FailedFit | `save`/`load` beyond `pickle` giving back an equal object |
| `dmdoperator.py`, `dmd.py`, `fbdmd.py`, `utils.py` | Operator, Whole, Rank, Differentiate | the random sketch of `compute_rqb` is an arbitrary matrix |
| `cdmd.py`, `rdmd.py` | Compressed | sparse matrix formats |
| `hankeldmd.py`, `hodmd.py`, `preprocessing/` | Hankel, Hodmd, Prepost, Compressed, Wrapped | |
| `mrdmd.py` | MrDMD, MrFit, MrLeaves | deep copies are values |
| `dmdc.py` | Dmdc | |
| `optdmd.py` | OptDmd | |
| `spdmd.py` | SpDmd | `verbose` output |
| `subspacedmd.py` | Subspace | |
| `edmd.py` | Edmd | the named kernels of scikit-learn are an arbitrary function |
| `paramdmd.py` | Param | the spatial reduction and the interpolation are arbitrary functions |
| `pidmd.py`, `pidmd_utils.py` | Pidmd, PidmdFft, PidmdOps | the sparse solver is an exact least-squares solution |
| `bopdmd.py` | Bop, BopEcon, BopEigs, BopOps, BopOpts, BopRun, BopSort, BopStd, BopStep, UqPlot | the distribution of the random bags |
| `varprodmd.py` | VarPro | the iteration of `scipy.optimize.least_squares` (its result is an arbitrary point) |
| `costs.py` | Costs, CostsInit, CostsIo, CostsKern, CostsPad, CostsPlot, CostsRank | k-means itself |
| `mrcosts.py` | MrCosts, MrCostsState | k-means, netCDF files (values and attributes are kept) |
| `havok.py` | Havok, HavokFit, HavokSim | the Gaussian of `compute_threshold` |
| `lando.py` | Lando, LandoFit, LandoKernel, LandoState | |
| `dmd_modes_tuner.py` | Tuner | |
| `plotter.py` | Plotter | drawing |
| `snapshots.py` | Snapshots | |

## 3. Assumed behaviour of external calls

| call | assumed |
|---|---|
| `np.linalg.svd(X, full_matrices=False)` | `X = U Σ V^H`, `U^H U = 1`, `V^H V = 1`, Σ real diagonal, non-negative and non-increasing |
| `np.linalg.eig(A)` | returned pairs satisfy `A w = λ w`, `w ≠ 0` |
| `np.linalg.lstsq(A, b)` | a minimiser of `‖A x - b‖₂` (normal equations); in LANDO the one of minimum norm (in the row space of `A`) |
| `np.linalg.solve(P, q)` | `P x = q` |
| `np.linalg.pinv(A)` | Penrose conditions |
| `scipy.linalg.rq(X, mode="economic")` | `X = R Q`, `Q Q^H = 1`, `R` upper triangular aligned at the lower right corner |
| `scipy.sparse.linalg.lsqr` | an exact least-squares solution |
| `scipy.sparse.linalg.eigs(A, k)` | `TypeError` for a sparse matrix of size at most `k+1`; otherwise `k` eigenvalues of largest modulus with eigenvectors of norm 1 |
| storing a complex numpy scalar into a real array | keeps the real part (ComplexWarning) |
| `np.linalg.qr(Y)` | `Q^H Q = 1` and the columns of `Y` are in the range of `Q` |
| `scipy.linalg.sqrtm(M)` | `S S = M` |
| `scipy.signal.lsim(sys, U, T, X0)` | the states follow `x(T[i+1]) = expm(A dt) x(T[i]) + G0 u[i] + G1 u[i+1]`; the first is `expm(A T[0]) X0`; `ValueError` for `T[0] < 0`, unequal steps, or a non-zero `U` of another length; the output is squeezed For C166 and C167: the gains of the inputs are blocks of `E = expm([[A dt, B dt, 0], [0, 0, I], [0, 0, 0]])`: `E[x,u0] - E[x,u1-u0]` for the input at the beginning of a step and `E[x,u1-u0]` for the input at its end. |
| `np.histogram(x, density=True)` | counts over widths and total |
| `pickle` | loading gives back an equal object |
| special methods (`__getitem__`) | looked up on the type, not through `__getattribute__` |
| `inspect.isfunction` | true for functions written in Python only |
| `np.argsort` | a permutation of the indexes (C131: sorted) |
| k-means (scikit-learn) | a parameter; for C131_padding_false: minimises the sum of squares; infinite values raise ValueError |
| `np.linalg.svd`, `np.linalg.eig`, `scipy.linalg.rq` on real arrays (C133, C158) | real singular vectors and factors; eigenvectors in conjugate pairs (LAPACK `geev`) |
| `reshape`, slicing, `np.array_split`, `np.asarray`, `np.squeeze` | share memory with their argument (for `reshape`: a matrix to its own shape, a contiguous array); `np.stack`, `np.array`, `copy` do not |
| random generators | arbitrary values (universally quantified) |
| `xr.Dataset`, `xr.DataArray` | raises ValueError when a dimension has two lengths; keeps values and attributes |
| `DataArray.interp(method="nearest")` | value at the nearest point, at the midpoint that of the earlier one; missing outside the range |
| `DataArray.sel(method="nearest")` | nearest point, of two equally near the later one |
| `isinstance(x, int)` | false for numpy integers, as returned by `np.sum` and `np.searchsorted` |
| `silhouette_score`, `calinski_harabasz_score` | arbitrary functions of the number of clusters; errors allowed |
| k-means in mrCOSTS | equal values get equal labels (the labels are a function of the value) |
| k-means, interpolators, kernels passed by the user | arbitrary functions |
| iterative solvers' single steps (varpro step, ADMM step) | arbitrary functions where only the loop logic is claimed |

## 4. Plan per property

| id | model | proof |
|---|---|---|
| C01–C04 | proxy as state machine on lists (`Model/Bitmask`) | invariant + refinement to an index-to-value map, induction on histories |
| C05 | Python index/slice resolution on lists of Bool | membership characterisation |
| C06, C07 | association-list dictionaries and a heap of cells for aliasing | invariant by induction over edits |
| C08 | `np.arange` on ℚ with ceiling | ceiling arithmetic |
| C09–C11 | dynamics/reconstruction as functions over a field | zpow algebra, sums over masks |
| C12, C13 | rank decision on lists of rationals/reals | case analysis, induction on the spectrum |
| C14 | matrices over ℂ with SVD spec | algebra |
| C15–C17, C19 | `Matrix` over ℂ, SVD/eig/lstsq spec | matrix algebra, normal equations |
| C18 | stable insertion/merge sort of pairs | `List.Perm`, sortedness, stability |
| C20 | nd-arrays as shape + flat C-order data | div/mod arithmetic |
| C21, C22 | index functions on `Fin`/bounded ℕ | arithmetic |
| C23 | integer window arithmetic | `omega` style, negation outside the proved range |
| C24 | `Matrix` | projection algebra |
| C25 | fold over a list of layers | induction on the list |
| C26 | record of persistent attributes per class and `fit` as a state transformer | history induction, negative witnesses |
| C27, C28, C31 | lists and ℕ arithmetic | bijection, induction |
| C29 | level loop over data in an additive group | induction on levels |
| C30 | rational intervals | order reasoning |
| C32, C34, C35 | selection on masks/lists | list induction |
| C33 | ℂ | norm algebra |
| C36 | heap of instances | induction over operations |
| C37, C38 | index maps | div/mod arithmetic |
| C39 | lists of columns, time windows; DMDc as in dmdc.py | induction on the loop |
| C40 | lists/functions over a field | ring identities |
| C41 | list of complex numbers, pairing order as parameter | case analysis, induction |
| C42–C44 | loops with step results as parameters | loop invariants |
| C45–C47 | ℕ arithmetic, weighted sums, permutations | arithmetic, induction |
| C48 | index arithmetic | div/mod |
| C49 | real functions | `HasDerivAt` |
| C50, C51 | `Matrix` | structure and optimality proofs |
| C52 | ℂ | norm algebra / witness |
| C53 | as C12, scaling of medians and cumulative sums | list induction |
| C54 | forward and backward operators over the two SVDs, `sqrtm` as any square root | matrix algebra, 2x2 witness |
| C55 | as C15 | normal equations |
| C56 | classification of `Snap.Input` | case analysis |
| C57 | as C25 with instance attributes | induction on the stack, witnesses |
| C58 | windows set by `fit`, number of columns | as C08 and C29 |
| C59 | as C32 | witness |
| C60 | as C15 | least-squares uniqueness, C16 |
| C61 | as C37, with the DMD class, POD and interpolator as parameters | composition of C37 and C38 |
| C62 | as C37 | witness |
| C63 | matrices over ℂ with SVD, eig and pinv by specification | invariance of the range, C39 |
| C64 | as C51 | stacked least squares |
| C65 | `transformAll`, `relabel`; the clustering is any nearest-centroid labelling | order argument on midpoints |
| C66 | matrices over ℂ, columns split into linear and forcing | normal equations, orthonormality |
| C67 | lists of integers | induction on the list |
| C68 | finite sums of exponentials, norms over ℝ | algebra |
| C69 | array after the call as a value | case analysis |
| C70, C71 | Fourier matrix of a finite abelian group, `ZMod n` and products; NaN as `none` | diagonalisation, row-wise least squares, Gram systems |
| C72, C73 | dictionary index type extended by `Unit`; kernel of a feature map | orthogonal projection; recursive least-squares invariant |
| C74 | real matrices complexified | eigenvalue algebra |
| C75, C76 | attribute record and call lists; shapes as lists | induction over call lists |
| C77 | compression matrix, SVD of both data sets | change of basis between the reduced coordinates |
| C78 | QR as parameter, power iterations by recursion | range of `Q` contains the snapshots (kernel argument), projection |
| C79 | option values as inductive type | case analysis |
| C80 | SVDs and `pinv_diag` with its threshold | Eckart–Young theorem (proved in `Lemmas/EckartYoung.lean`) |
| C81 | numpy comparison of complex numbers, real part kept by `pinv_diag` | matrix algebra, witnesses |
| C82 | slices, the projection onto the past, the retained left factors, the reduced operator | matrix algebra: the retained factors are A-invariant |
| C83 | kernel matrices, eigenvectors of the Gram matrix, sorting, truncation, `pinv`, `K_hat`, `eigenfunctions` | matrix algebra on the feature matrix |
| C84 | the same and the modes, selection of nonzero eigenvalues | matrix algebra, witness |
| C85 | the same with the linear kernel, and `DMDOperator` | the reduced operators are transposes of each other |
| C86 | constructor checks, rank, shapes in `eigenfunctions` | case analysis, witness |
| C87 | exponentials, SVD elimination, residual of `VarProDMD` | Pythagoras for the projection; witness with equal exponents |
| C88 | residual and Jacobian, flattening into real and imaginary parts | derivative of orthogonal projections (`Lemmas/VarPro.lean`); witness |
| C89 | Jacobian, scales, pivoted QR, stacked least squares and un-pivoting of `BOPDMD._variable_projection`; the search loop of C44 | normal equations; derivative of the projected error along the curve of steps as a function of 1/λ² |
| C90 | the course of `least_squares` as the list of evaluated points, the helper object overwritten by each, modes, amplitudes, forecast with NaN | C87 and projection; witness with a rejected last step |
| C91 | means, slopes, initial SVD and matrix | similarity; witness |
| C92 | `np.argsort` assumed to sort, keys, simultaneous permutation | case analysis; witness |
| C93 | sample selection by pivoted QR (the permutation a parameter), `ssr`, `dynamics` | case analysis |
| C94 | `array_split` and `partial_time_interval` of `MrDMD` | closed form of the split points; the interval is off by up to a quarter of the number of leaves (D87) |
| C95 | the mask of `slow_modes` | real and imaginary part of the logarithm |
| C96 | the tree with the attributes of the leaves, `block_diag`, all `partial_*` accessors | induction over the leaves of a level and the levels |
| C97 | flattening, projection, delay embedding and post-processing of `HODMD` on lists; operator and modes on matrices | linearity of the post-processing; the projection blocks form an isometry |
| C98 | what `fit(X, Y)` of a wrapped DMD passes on | centred rows are orthogonal to constants; 2x2 witnesses |
| C99 | attributes of a COSTS object, dataset, conversion both ways (xarray as lists of named arrays checked for shape) | following every attribute; witnesses for what is lost |
| C100 | the choice of rank in `COSTS.fit` and in the fit of each window, with the Python type of the number | cases on svd_rank; a rank returned as numpy integer is not `int` |
| C101 | the shared dictionary as state passed through the levels | induction over the levels |
| C102 | interpolation of eigenvalues to the grid of the first level, filling, clustering as a function of the eigenvalue, selection by nearest time | the rows at the grid point nearest to a window are those of the window when gaps double |
| C103 | global bands, background and inputs of the levels | bands partition the fast modes; telescoping sum |
| C104 | the loop of `COSTS.fit` over the state of one BOPDMD object (C26) | induction over the windows |
| C105 | `_build_initialization` with repetition, tiling and broadcasting on lists | lengths of the lists |
| C106 | `_argsort_eigenvalues` and its state in the loop of C43; `np.argsort` assumed to sort, ties in any order | simulation of the loop of C43; uniqueness of sorting; witness with four eigenvalues |
| C107 | `forecast` with arbitrary numbers drawn | sums; growth of the exponential |
| C108 | `fit_econ` and `fit` on the state of one instance | `Uᴴ U = 1`; case analysis of the checks |
| C109 | `lsim` as the recurrence SciPy documents, with the matrix exponential; squeezing; `dehankel` of C48 | uniqueness of the recurrence; witness `dv/dt = v` |
| C110 | counts and edges to the threshold, exact rationals; the Gaussian is not modelled | first indexes, sums over bins, reflection; witnesses |
| C111 | checks of `fit` in order and what is stored when; numbers are free | case analysis |
| C112 | model of C37; the interpolator is any function that treats parameters one by one | calculation with `reshape` and `dstack`; sums |
| C113 | arrays of eigenvalues with their type (real or complex), time dictionaries, leaves; exact numbers | complex logarithm and its branch; sign of the cosine |
| C114 | model of C51 | convexity along segments, subgradients; witness with one mode |
| C115 | `meshgrid` and `reshape` as lists of points with values | division with remainder |
| C116 | index checks, loop over conjugate pairs, shares, times; drawing not modelled | invariant of the loop; inequalities over lists |
| C117 | limits over the reals; `if level:` | induction over maxima; linear arithmetic |
| C118 | state of mrCOSTS; COSTS as operations with any results and errors | induction over the loop |
| C119 | the same state, cache of interpolated eigenvalues | invariant over sequences of fits and clusterings |
| C120 | directory as a map from names to contents, merge sort | permutation of a sorted list |
| C121 | argmax, `range`; scores as any function | induction; linear arithmetic |
| C122 | choice of the input in the plot functions | from C118; a concrete fit |
| C123 | over the reals, division by 0 as inf | periods of the complex exponential |
| C124 | selection of indexes, grid of subplots as lists, average over delays | division with remainder, induction |
| C125 | active indexes, slices of C67, cut of the switches | induction over the active indexes |
| C126 | weights over the reals; shapes of the times | identities and bounds for exp |
| C127 | attribute lookup of the wrappers of C57; isinstance tests | induction over layers, complex logarithm |
| C128 | functions by the shapes they return; sklearn as a parameter | case analysis |
| C129 | the object of C08 with deviations beside it; argsort as a parameter | simulation relation of C08, lists |
| C130 | Python values by kind, dictionaries as lists; functions by the shapes they return | case analysis |
| C131 | padded array of eigenvalues, transformations over the reals; k-means as a parameter | lists; optimality of k-means by comparing sums of squares |
| C132 | panels as arrays with colour scales, dictionaries as state | sums over bands, lists |
| C133 | operator, modes, amplitudes and reconstruction of earlier models; conjugate pairs as a permutation | characteristic polynomial with real coefficients, uniqueness of the pseudo-inverse, sums reindexed by the permutation |
| C134 | `compute_operator` as a relation between data and all possible results | a factorization of the data gives one of the transformed data |
| C135 | operator, DMDc and Hankel models of C15, C39, C22 | matrix algebra, induction on the loop of DMDc |
| C136 | reduced operator and delay matrix of earlier models | the reduced operator is similar to the operator of the system; Vandermonde determinant |
| C137 | `compute_operator` as a relation (C134); a jump of the singular values as a condition on the data | singular values from the characteristic polynomial; leading singular vectors unique up to a unitary matrix that commutes with the singular values; eigenvectors of different eigenvalues unique up to factors |
| C138 | end of `_single_trial_compute_operator` and of `compute_operator`, accessors `A`, `atilde` | uniqueness of the pseudo-inverse, derivative of the forecast |
| C139 | error of the variable projection (C89) | Vandermonde determinant for the union of both sets of eigenvalues |
| C140 | `compute_operator` as a relation (C134), clean and perturbed data | compactness: results of converging data converge along a subsequence to a result for the limit; that is unique by C137 |
| C141 | `LANDO.fit` with its weights as a least-squares solution, `update`, `predict`, `analyze_fixed_point` | the dictionary spans the features of the snapshots (dict_tol=0), so the least-squares residual is 0 and the model equals the linear functional on that span; unisolvent sets exist for every degree |
| C142 | the ADMM loop of SpDMD (C51) | norm bounds on the first iterates; explicit one-mode iteration for the negation |
| C143 | `DMDBKnownOperator.compute_operator` after `compute_tlsq`, `DMDc.reconstructed_data` on a changed time axis, `frequency` | C22 with projected data: the projection cancels on both sides; explicit signal for lag and dt |
| C144 | `_compute_amplitudes` with `_optimal_dmd_matrices` per class and the value (or absence) of `_exact` | normal equations of the amplitude problem; explicit one-state data for the negations |
| C145 | the `compute_*` functions of PiDMD (C26-C33) | the least-squares residual of the declared matrix is 0, and the full-rank hypothesis gives uniqueness; in Fourier coordinates for circulant matrices |
| C146 | `MrDMD.fit` over the levels with the leaf fits and the slow mask, `reconstructed_data` | induction over the levels: on every window the leaf fit finds the components (C136), the mask takes those under the threshold |
| C147 | `PiDMDOperator.compute_operator` cases 1 to 3: what is stored | pseudo-inverses computed from orthonormality; circulant case in Fourier coordinates; explicit data for the negations |
| C148 | `DMD.fit`, `frequency`, `dynamics`, `reconstructed_data` with time dictionaries in physical units | components identified by C146 lemma, complex powers as exponentials below the Nyquist limit; existence of svd, eig and lstsq results |
| C149 | `fit` of DMD, VarProDMD, HankelDMD, DMDc, PrePostProcessingDMD as state changes with a failure at any step | case split on the step that raises; witnesses by refitting with options made for the first data |
| C150 | the relation between data and possible results of OptDMD, DMDc, PiDMD, SubspaceDMD, EDMD | isometries carry SVDs over; pseudo-inverses are unique; bound of singular values by the Frobenius norm |
| C151 | `predict` of DMD and OptDMD on the training pairs as a function of the rank | the squared error is the part of Y outside the basis plus a sum of nonnegative terms that do not increase with the rank; witness with 3 sensors and 2 pairs |
| C152 | whole run of `_variable_projection` (`BopRun.run`), the normalisation of the modes, `forecast`, `_initialize_alpha`, `_push_eigenvalues` | two runs are related step by step (`varpro_congr`): residual, Jacobian, step and error of corresponding points agree (partial: D204, D205) |
| C153 | `_initialize_alpha` (`BopRun.initialMatrix`) | the slopes and means of exponentials are `F L G` and `F G` with `L` diagonal, so C136_linear applies; `tanh` by its power series and as a Cayley transform (partial: D206) |
| C154 | whole run of `_variable_projection` (`BopRun.run`), `forecast`, `_initialize_alpha` | complex conjugation with a permutation of the indices is a symmetry of residual, Jacobian, step and error (`varpro_congr` with this map) |
| C155 | whole run of `_variable_projection` (`BopRun.run`), `forecast` | the Gram matrix of the Jacobian and the right-hand side of the step do not depend on the order and the coordinates (`delta_gram`, `jac_order`), so the runs agree (`varpro_congr`); for the unit all scale with `g` unless clipped; witness with one step on two samples |
| C156 | `compute_operator` with `forward_backward=True` (`IsResult`) | the root for the reversed pairs is the inverse matrix; eigenvalues of an inverse with multiplicities (`InvRoots`); one-dimensional witness |
| C157 | `_least_square_operator`, `_compute_modes`, `predict` (`RankFit.Fit`) | error and size as sums over the entries of `U^H Y V` with gains `s² / (s² + mu)` that decrease; rational witnesses |
| C158 | the fits of all manifolds except the symmetric tridiagonal one (modelled over the reals) | transform of real data at opposite frequencies, uniqueness of the pseudo-inverse, mean of a best fit and its conjugate; witnesses with third and fourth roots of unity |
| C159 | the iteration of `SpDMD` and its amplitudes on modes in conjugate pairs | every step commutes with isometries of the entries; uniqueness of the solution of the KKT system |
| C160 | the same on transformed data and modes | same; witness with one mode |
| C161 | PiDMD fits of these manifolds (`IsUnitary`, `IsSymmetric`, `circSpectral`) and the reconstruction | Gram matrix of the eigenvectors of unitary, Hermitian and skew-Hermitian matrices; powers of numbers of modulus 1 |
| C162 | a whole run of `least_squares` as any deterministic program calling residual and Jacobian, which share a state; fit and forecast | induction over the steps; the column space of the exponentials does not change and the extra term of the derivative is projected away |
| C163 | a memory of buffers and arrays as ranges of columns; `Snapshots`, the loop of `MrDMD.fit` with its subtraction in place, the times kept by four methods | induction over the levels; refinement of the model on values |
| C164 | the existing models of the five classes (Dmdc, OptDmd, Edmd, Subspace, Compressed) over real data | conjugation commutes with every step; conjugate pairs of a real spectrum from C133; a quarter turn shifted by the threshold for the negation |
| C165 | `PDmd.fit`, `setTime`, `setParameters`, `reconstructedData` for an abstract DMD class, POD and interpolator | Both orders are shown to forecast the same coefficients per parameter (`Forecasts`); `C112_pointwise` then gives the prediction, and the interpolator is order free |
| C166 | `lsim` with the gains of SciPy (`stepMatrix`, `scipyGains`), `predict`, `reconstructedEmbeddings` | The blocks of the exponential are found by intertwining (`M E = E X` gives `exp M E = E exp X`); a step is the value of a solution; solutions are unique (Gronwall) |
| C167 | the numbers of `HAVOK.fit` as a relation (`IsFit`, `IsStructured`), simulations with the gains of SciPy | Leading singular vectors are unique up to a unitary matrix, which is diagonal with signs here; with orthonormal embeddings the operator is `(V^H V_dot)^T`; a change of coordinates goes through the exponential of `lsim`; a concrete pair of fits refutes the structured case |
| C168 | dictionary, batch and online weights and the model `f` of LANDO (`IsLearnt`, `learntOnline`), `tlsq_rank = 0` | A map of the inputs that multiplies the kernel by a number carries the whole dictionary learning along; weights of least error are unique as a model because the dictionary consists of data; with tolerance zero all orders give dictionaries with the same span; the RBF kernel is an inner product of Gaussians in L2; the linear part is the derivative up to a sign; two-snapshot examples refute the rest |
| C169 | `compute_operator` as relation (`Whole.IsResult`), amplitudes by pseudo-inverse, reconstruction | The SVD cut at the rank has positive singular values; the reduced operators of `X, Y` and `B X, B Y` are similar because both spaces of left singular vectors are images of the same combinations of snapshots; eigenvectors of different eigenvalues are multiples; two examples with all possible results refute the rest |
| C170 | `ParametricDMD` on memories of DMD and POD objects (`ParamShared.Obj`), `fit`, `_predict_modal_coefficients`, `reconstructed_data`, `training_modal_coefficients` | Simulation between the model with addresses and the model with private objects (Model/Param) if the addresses differ; frame lemmas for the loops; the state left by loops over one address and by loops that raise, for all data |
| C171 | `COSTS.fit`, `cluster_omega` and `scale_reconstruction` composed of the models of their parts (`CostsWhole.fit`, `Fitted.bands`); BOPDMD on a window, singular values, k-means, argsort as parameters | The windows given to BOPDMD are equal; the arrays are followed through loop, clustering and weighted sum; coverage from C45, lowest band from the sorting of the centroids; the leading left singular vector of two orthogonal rows is computed from the Gram matrix |
| C172 | `compute_varprodmd_any` from the SVD of the data on, with and without projection, with the optimizer any deterministic program and all other library calls functions of their arguments (Model/VarProWhole, VarProRun, VarPro) | with projection the optimizer sees only the right singular vectors, which a rotation leaves alone; without it residual and Jacobian are turned by an isometry, and an induction over the steps of the optimizer carries this to the result; the gradient is quadratic in the unit, so that it is below `gtol` in a large enough unit |
| C173 | `PDmd.fit`, `setTime`, `setParameters`, `reconstructedData` (Model/Param) with the POD as matrix of modes (Model/ParamPod) | the reduced snapshots are the same (in the new unit), so that all later states are related; the relation is followed through fit, window, forecast and interpolation, exceptions included |
| C174 | `CostsWhole.fit` (costs.py L429-613): windows, preparation, loop, arrays; BOPDMD and SVD are parameters | decomposition of a successful fit, C104 for the independence of the windows, entrywise reading of the arrays |
| C175 | `CostsWhole.fit`, `Fitted.bands`; BOPDMD on a window, SVD and k-means are parameters, assumed to follow unit and order (`Turns`) | simulation of the loop over the windows, invariance of the rank (C53), linearity of the reconstruction |
| C176 | `CostsWhole.fit`, `Fitted.bands`, `CostsPad.transform`, `CostsPad.cluster`; BOPDMD on a window, k-means and argsort are parameters, assumed to follow the unit of time (`Clocks`, `UnitFree`, `OrderOnly`) | simulation of the loop over the windows; each transformation changes by an increasing affine map, which keeps labels and the order of the centroids |
| C177 | `MrCostsWhole.ops`: the loop of mrCOSTS (`MrCostsState.fit`) with `CostsWhole.fit` and `Fitted.bands` on its levels; numerical routines, k-means and the score of the sweep are parameters | simulation of the loop over the levels (`Follows`) with C171, C175 and C176 on each level |
| C178 | `MrCostsWhole.ops` as for C177 | relational simulation of the loop over the levels with C171 on each level; a COSTS fit depends on the data at the time steps only (`fit_congr`). Missing: global SVD, refuted by `C171_global_false` |
| C179 | `Dmdc.reconstructedData`, `controlLoop` as for C39 | induction on the number of common columns; induction on the controls with the mixed state as invariant; the loop depends on the last `lag` columns only (restart). Nothing is assumed of the ratio of the time steps or of `pinv` |

## 5. Disagreements between code and property

| id | property | code behaviour | theorem |
|---|---|---|---|
| D01 | C05 | `dmd[np.array([0, 2])]` raises ValueError although the docstring lists numpy arrays among the keys | `C05_ndarray_keys_false` |
| D02 | C05 | `dmd[key]` returns a copy built from the values last flushed by a mask change; in-place edits made since are not in it | `C05_getitem_sees_edits_false` |
| D03 | C06 | the `dmd_time` setter accepts any dictionary; afterwards item assignment on it is unguarded | `C06_replacement_unchecked_false` |
| D04 | C08 | `dmd_timesteps` ends after `tend` when `tend - t0` is not a multiple of `dt` (`np.arange(t0, tend + dt, dt)`) | `C08_overshoot_false` |
| D05 | C12 | `svd_rank=np.int64(2)` is not an instance of `int`, so no truncation is made | `C12_numpy_integer_false` |
| D06 | C17 | a zero entry in `rescale_mode` changes the eigenvalues | `C17_zero_factor_false` |
| D07 | C17 | `rescale_mode="auto"` is overwritten with the singular values of the first fit; a later fit uses the old ones, or raises | `C17_auto_refit_false` |
| D08 | C19 | `opt=True` with `exact=False` and no `Y`: the normal matrix sums over all snapshots, the right-hand side over all but the last | `C19_projected_false` |
| D09 | C54 | forward and backward operators are multiplied although expressed in different bases; wrong eigenvalues on noise-free linear data | `C54_forward_backward_false` |
| D10 | C15 | with `exact=True`, a zero eigenvalue of the reduced operator gives a zero mode, which is not an eigenvector | `C15_zero_eigenvalue_false` |
| D11 | C23 | `HankelDMD.reconstructed_data` for `t0` before the training window returns wrong columns | `C23_before_training_false` |
| D12 | C23 | `HankelDMD` with `dmd_time["dt"]` different from the original step returns states at the wrong times | `C23_coarser_step_false` |
| D13 | C23 | `HankelDMD` with `original_time["t0"]` not 0 subtracts it twice | `C23_shifted_origin_false` |
| D14 | C24 | `svd_projection_preprocessing` uses the transpose instead of the conjugate transpose: wrong for complex data | `C24_svd_projection_complex_false` |
| D15 | C56 | `HankelDMD.fit` fails on lists and on arrays with more than one space axis | `C56_hankel_input_false` |
| D16 | C57 | assigning `dmd_time` on a pre/post-processed DMD has no effect on its reconstruction | `C57_assign_false` |
| D17 | C57 | `fit` of a pre/post-processed DMD returns the innermost DMD | `C57_fit_returns_inner_false` |
| D18 | C27, C30 | negative leaf numbers are accepted: `tree[1, -1]` is node (0, 0), and `partial_time_interval(level, -1)` an interval before the training window | `C27_negative_leaf_false` |
| D19 | C29 | with integer snapshots the level contributions are truncated (`newX.astype(X.dtype)`) before being subtracted | `C29_integer_false` |
| D20 | C31 | with three snapshots level 1 is allowed although one leaf gets a single snapshot, so `fit` raises | `C31_three_snapshots_false` |
| D21 | C31 | `max_level` is lowered permanently: a later fit on more snapshots keeps the low level | `C31_refit_false` |
| D22 | C31 | a sequence of DMDs, one per requested level, makes `fit` raise when the level must be lowered | `C31_sequence_false` |
| D23 | C58 | `MrDMD` sets `tend = n`, so `dmd_timesteps` has one entry more than the reconstruction has columns | `C58_mrdmd_timesteps_false` |
| D24 | C32 | `select_modes` on an instance with inactive modes clears the wrong entries of the mask | `C32_masked_false` |
| D25 | C59 | `select_modes` ignores `nullify_amplitudes` | `C59_nullify_false` |
| D26 | C34 | `ModesSelectors.threshold` excludes its bounds, documented as included | `C34_inclusive_false` |
| D27 | C34 | `stable_modes` takes a distance 0 for an argument not given | `C34_zero_distance_false` |
| D28 | C35 | `integral_contribution(0)` keeps all the modes | `C35_zero_false` |
| D29 | C62 | `ParametricDMD.fit` stores the number of training parameters before checking the number of DMDs: after the rejected call the old fit is reshaped wrongly | `C62_rejected_fit_false` |
| D30 | C39 | DMDc: `fit` accepts a one-dimensional control (`atleast_2d`), `reconstructed_data(control)` raises `ValueError` for the same array | `C39_one_dimensional_false` |
| D31 | C40 | `differentiate` stores into a float array: imaginary parts of the derivative are dropped | `C40_complex_false` |
| D32 | C40 | `differentiate` squeezes: an array of shape `(1, n)` comes back with shape `(n,)` | `C40_shape_false` |
| D33 | C51 | SpDMD reads the discarded modes from the last but one `beta`; if the loop makes no iteration all the modes are discarded | `C51_final_iterate_false` |
| D34 | C52 | `soft_thresholding_operator` computes `((1-k)/abs(v)) v`: every entry above the threshold gets modulus `abs(1-k)`, with reversed sign for `k > 1` (default `gamma/rho` is 10), and an entry 0 gives NaN | `C52_soft_threshold_false`, `C52_zero_false` |
| D35 | C46 | COSTS adds the window means to the band with the smallest centroid only if some eigenvalue is in it; otherwise `global_reconstruction` loses the means | `C46_means_false` |
| D36 | C65 | COSTS with `transform_method="period"`: band 0, the "low-frequency" component, holds the highest frequencies | `C65_period_false`, `C65_period_reversed` |
| D37 | C65 | COSTS clustering with the default `transform_method=None` raises `ValueError`; the documentation gives `"absolute"` as default | `C65_default_false` |
| D38 | C48 | HAVOK `dehankel` leaves columns uninitialised (`np.empty`) when `lag` exceeds the number of columns of the Hankel matrix | `C48_gap_false` |
| D39 | C48 | HAVOK `hankel` stores into a float array: imaginary parts are dropped | `C48_complex_false` |
| D40 | C43 | BOP-DMD with `bag_maxfail=0` raises RuntimeError even after a successful trial | `C43_zero_false` |
| D41 | C44 | Variable projection started at a perfect guess is reported as not converged, for all options | `C44_perfect_guess_false` |
| D42 | C44 | With zero data the relative error is NaN: every step is accepted and convergence is never reported | `C44_zero_data_false` |
| D43 | C44 | A step whose error is NaN is accepted (`NaN >= x` is false) and replaces a good iterate | `C44_nan_step_false` |
| D44 | C68 | If all fitted coefficients vanish, the normalised modes are NaN | `C68_zero_false` |
| D45 | C41 | `conjugate_pairs` can pair two eigenvalues on the same side of the real axis and make them equal instead of conjugate | `C41_same_side_false` |
| D46 | C41 | `conjugate_pairs` raises ValueError for two distinct real eigenvalues, which are already closed under conjugation | `C41_two_real_false` |
| D47 | C41 | With repeated eigenvalues the outcome of `conjugate_pairs` depends on the order of `set.pop` | `C41_repeated_false` |
| D48 | C69 | `stable` without `conjugate_pairs` overwrites the array passed by the caller (`init_alpha`) | `C69_overwritten_false` |
| D49 | C50 | The full operator of the unitary manifold is a partial isometry, not unitary, whenever the rank is below the number of states (also with svd_rank=-1 and fewer snapshots than states) | `C50_unitary_truncated_false` |
| D50 | C50 | The symmetric manifold stores complex entries into a real array: imaginary parts are lost, the fit of complex data is not optimal | `C50_symmetric_complex_false` |
| D51 | C50 | With fewer snapshots than states the symmetric and skew-symmetric operators are restricted to the range of the data and are not the best fit in the manifold | `C50_symmetric_thin_false` |
| D52 | C50 | The "upper triangular" operator is not upper triangular for rank-deficient data, and not the best fit with fewer snapshots than states | `C50_upper_deficient_false`, `C50_upper_thin_false` |
| D53 | C50 | "diagonal" and "symmetric_tridiagonal" with the default arguments call `eigs` with too many eigenvalues: TypeError as soon as there are at least p-1 snapshot pairs | `C50_default_rank_false` |
| D54 | C50 | An array `manifold_opt` is documented as index bounds but used as widths | `C50_widths` |
| D55 | C71 | `compute_circulant` transforms X without conjugating it: for complex snapshots the eigenvalues are wrong (X = Y = i gives -1) | `C71_circulant_complex_false` |
| D56 | C71 | "circulant_unitary" is never unitary once eigenvalues are truncated, also with svd_rank=-1 and fewer snapshots than states | `C71_circulant_unitary_truncated_false` |
| D57 | C71 | A Fourier component absent from the data (e.g. zero spatial mean) gives 0/0 = NaN in every entry of the operator | `C71_circulant_zero_mean_false` |
| D58 | C49 | `kernel_gradient` for RBF is the gradient with respect to the wrong argument: the sign of the linear part is wrong | `C49_rbf_false` |
| D59 | C75 | After a second `fit`, bias and linear still answer with the values of the old model, nonlinear mixes both | `C75_refit_false` |
| D60 | C75 | `analyze_fixed_point(compute_A=False)` after one with `compute_A=True` leaves the operator of the old point in `linear` | `C75_stale_linear_false` |
| D61 | C76 | `predict` raises ValueError for snapshots with several axes (it flattens the state, then `f` rejects the flat shape) | `C76_multidim_false` |
| D62 | C76 | A multi-dimensional `x_rescale` is flattened in place, so every later `fit` rejects it | `C76_rescale_refit_false` |
| D63 | C73 | Online learning with a first snapshot of zero feature (e.g. zero snapshot, linear kernel) divides by zero | hypothesis of `C73_online` |
| D64 | C26 | `DMD(rescale_mode="auto")` keeps the singular values of the first data: later fits are scaled with them, or raise ValueError if the rank differs | `C26_dmd_auto_false`, `C26_dmd_auto_raises` |
| D65 | C26 | `RDMD` keeps the test matrix drawn at the first fit: a fit on another number of snapshots raises ValueError | `C26_rdmd_false`, `C26_rdmd_raises` |
| D66 | C26 | `BOPDMD` keeps rank, projection basis and initial eigenvalues of the first data for all later fits | `C26_bop_false`, `C26_bop_keeps_first` |
| D67 | C26 | `BOPDMD(use_proj=False)` with a truncating rank cannot be fitted twice, not even on the same data | `C26_bop_noproj_false`, `C26_bop_noproj_raises` |
| D68 | C26 | A `BOPDMD` fit that raises on data of too small rank lowers `svd_rank`, so later fits raise too | `C26_bop_given_false` |
| D69 | C26 | `VarProDMD.fit` does not reset the mode proxy: modes, eigs, amplitudes once read stay those of the first fit, `forecast` uses the new ones | `C26_varpro_false`, `C26_varpro_stale` |
| D70 | C77 | If the right snapshots leave the span of the left ones, CDMD and DMD eigenvalues differ even for a compression injective on that span | `C77_inconsistent_false` |
| D71 | C78 | With `svd_rank=0` CDMD and RDMD take the optimal rank from the shape of the compressed data, so the rank can differ from DMD although the singular values agree | `C78_auto_rank_false` |
| D72 | C79 | The documented options `rescale_mode="auto"` and `tikhonov_regularization` raise ValueError and TypeError for CDMD and RDMD on all data | `C79_options_false` |
| D73 | C80 | The threshold of `pinv_diag` is absolute: for data with singular values below 2.2e-12 OptDMD predicts zero | `C80_small_data_false` |
| D74 | C81 | OptDMD modes are zero for all eigenvalues with a real part that is not positive | `C81_modes_false`, `C81_modes_vanish` |
| D75 | C81 | `OptDMD(factorization="evd").predict` always raises AttributeError | `C81_predict_false` |
| D76 | C82 | SubspaceDMD divides each mode by its eigenvalue: a zero eigenvalue gives NaN modes | `C82_zero_eigenvalue_false` |
| D77 | C82 | `SubspaceDMD(rescale_mode="auto")`, as documented, always raises ValueError on fit | `C82_auto_false` |
| D78 | C84 | `EDMD.eigenfunctions` also returns the functions whose zero eigenvalues were discarded: its values are not aligned with `eigs` and `modes` | `C84_positions_false` |
| D79 | C83 | `EDMD` needs orthonormal eigenvectors of the Gram matrix but calls `np.linalg.eig`, which guarantees only unit vectors: with repeated eigenvalues the results may be wrong | `C83_eig_false` |
| D80 | C86 | After `EDMD.fit(X)` without `Y`, `eigenfunctions` always raises ValueError | `C86_without_Y_false` |
| D81 | C87 | `VarProDMD`: with coinciding exponents the residual is also projected onto the complement of singular vectors of zero singular values and may be reported as zero | `C87_deficient_false` |
| D82 | C88 | `_compute_dmd_jac`: the derivative by the imaginary parts has the wrong sign in the second term | `C88_imag_false` |
| D83 | C90 | `VarProDMD`: coefficients are taken from the last evaluation of the residual, exponents from the best one: after a rejected last step they do not belong together | `C90_stale_false` |
| D84 | C91 | `VarProDMD`: the arguments of `_compute_dmd_ev` are exchanged: the optimisation starts at the reciprocals of the eigenvalues | `C91_initial_false` |
| D85 | C92 | `VarProDMD(sorted_eigs="auto")` sorts by signed real or imaginary parts, not absolute ones | `C92_auto_false` |
| D86 | C93 | `VarProDMD` with a compression that leaves at most one sample raises TypeError | `C93_few_samples_false` |
| D87 | C94 | `partial_time_interval` divides the time evenly, `array_split` does not: leaf 3 of 8 over 20 snapshots is fitted on 9..11 and reported as [7.5, 10] | `C94_window_false` |
| D88 | C95 | `max_cycles` is documented as a number of oscillations, but a decaying mode without oscillation is dropped | `C95_damped_false` |
| D89 | C98 | `fit(X, Y)` of a pre-processed DMD passes `Y` on unprocessed: the default zero mean learns a singular operator for data that do not change | `C98_default_false` |
| D90 | C98 | with the SVD projection `fit(X, Y)` raises if the rank is reduced, and uses the unrotated `Y` otherwise | `C98_projection_false` |
| D91 | C99 | an object read by `from_xarray` cannot be clustered (TypeError): the allocated rank is not restored | `C99_recluster_false` |
| D92 | C99 | `to_xarray` raises ValueError after a fit with `global_svd=False` and `svd_rank` 0 or -1 | `C99_local_false` |
| D93 | C99 | functions among the keyword arguments come back as strings | `C99_callable_false` |
| D94 | C100 | `svd_rank=0` with a global SVD: the rank is computed twice, the second time from a numpy integer which counts as no integer, so the full rank results and the fit raises | `C100_auto_global_false` |
| D95 | C100 | `svd_rank=0` with a local SVD fits with full rank | `C100_auto_local_false` |
| D96 | C100 | `max_rank` with a global SVD raises ValueError | `C100_max_rank_false` |
| D97 | C100 | a fraction as `svd_rank` is refused (as odd rank) or raises | `C100_fraction_global_false`, `C100_fraction_local_false` |
| D98 | C101 | with `global_svd_array = [True, False]` the second level is fitted with the basis of the first | `C101_leak_false` |
| D99 | C101 | all levels record the last basis; the dictionary of the caller is changed | `C101_recorded_false`, `C101_caller_false` |
| D100 | C102 | the modes of a shortened last window get the bands of the window before | `C102_last_window_false` |
| D101 | C102 | a window with slow modes only gets the bands of its neighbour; its modes are counted twice | `C102_quiet_window_false` |
| D102 | C102 | a mode number that is slow in every window makes the reconstruction raise IndexError | `C102_stationary_false` |
| D103 | C104 | with the default `global_svd=True` the guess is that of the first window, and `use_last_freq` and `reset_alpha_init` have no effect | `C104_global`, `C104_ignored_false` |
| D104 | C104 | with `global_svd=False` a new guess is computed for each window, `reset_alpha_init` or not | `C104_reset_false` |
| D105 | C104 | `use_last_freq` raises ValueError if the rank of a window differs from that of the window before | `C104_last_rank_false` |
| D106 | C105 | `initialize_artificially` raises ValueError after clustering into any number of bands but two | `C105_bands_false` |
| D107 | C105 | with rank 2 and two bands the guess is no conjugate pair | `C105_pairs_false` |
| D108 | C105 | the arguments `cluster_centroids`, and `init_alpha` without `initialize_artificially`, are ignored | `C105_argument_false`, `C105_alpha_false` |
| D109 | C105 | the guess of the first artificial fit is kept for all later ones | `C105_stale_false` |
| D110 | C106 | with the default `eig_sort="auto"` noise decides the order within a conjugate pair when real parts spread most, and the mean over bags is real | `C106_auto_false` |
| D111 | C107 | `forecast` draws real multiples of the deviations: frequencies never vary, their spread is added to the growth rates, and forecasts of purely oscillating bags grow without bound | `C107_frequency_false`, `C107_stable_false` |
| D112 | C107 | `forecast` of a single time raises TypeError after bagging; after `fit_econ` with bagging AttributeError | `C107_single_false`, `C107_errors` |
| D113 | C108 | `fit_econ` refuses rank 1 and every `svd_rank` that is not the number of columns of the basis, among them the default | `C108_rank_one_false`, `C108_rank_false` |
| D114 | C100 | `force_even_eigs` leaves an odd number of modes in a window with an odd number of singular values below `svd_rank` | `C100_even_false` |
| D115 | C109 | for times that start after 0, `lsim` carries the initial condition from 0 to the first time: predictions and reconstructions do not start at `V0`, as documented; times that start before 0 raise ValueError | `C109_start_false`, `C109_reconstruct_false`, `C109_negative_time` |
| D116 | C109 | `predict` with more than one delay returns `(delays-1)*lag` more columns than times; `reconstructed_data` of structured HAVOK has one column fewer than the snapshots | `C109_length_false`, `C109_shape` |
| D117 | C109 | with `r = num_chaos + 1`, which `fit` accepts, `predict` and `reconstructed_data` always raise; so does a prediction at one time | `C109_single_coordinate_false`, `C109_single_time_false` |
| D118 | C110 | `compute_threshold` with an integer `p` always raises TypeError (an array is called) | `C110_integer_false` |
| D119 | C110 | for forcings away from 0 or bins of unequal width the threshold is unrelated to the probability `p`, and need not grow as `p` shrinks; `p=0.0` has none | `C110_one_sided_false`, `C110_widths_false`, `C110_monotone_false`, `C110_zero_false` |
| D120 | C111 | a fit rejected for its rank overwrites `r`; `np.int64` time steps are rejected | `C111_rank_false`, `C111_numpy_step_false` |
| D121 | C112 | one parameter with several components, given as a flat list, is taken as several parameters with one component each | `C112_flat_false` |
| D122 | C113 | `frequency` is 0 for all modes when NumPy returns real eigenvalues, also for negative ones (true value `1/(2 dt)`); reconstructions between snapshots are then `nan` | `C113_real_false` |
| D123 | C113 | `growth_rate` is the real part of the discrete eigenvalue over `dt`: positive for decaying modes, `1/dt` for neutral ones | `C113_growth_false`, `C113_neutral_false` |
| D124 | C113 | `BOPDMD.frequency` and `growth_rate` raise RuntimeError after every fit | `C113_bop_false` |
| D125 | C113 | `time_window_frequency` of MrDMD ignores the time step set in `original_time` | `C113_mrdmd_false` |
| D126 | C114 | because of its soft thresholding (D34) the iteration of SpDMD does not rest at the solution of its problem; for `gamma = rho` it never finds a non-zero amplitude | `C114_modulus_false`, `C114_equal_false`, `C114_fixed_point_false` |
| D127 | C115 | `plot_modes_2D` and `plot_snapshots_2D` with their defaults draw square snapshots transposed and scramble all others (the grid has shape `(n1, n0)`, the data `(n0, n1)`) | `C115_default_false`, `C115_scrambled_false` |
| D128 | C116 | "% variance" in `plot_summary` is the share of the sum of singular values, not of their squares | `C116_variance_false` |
| D129 | C116 | `plot_summary` draws the dynamics of `dmd_time` at the times of `original_time`: wrong for shifted windows, ValueError for forecasts; IndexError for VarProDMD without `t` | `C116_shifted_false`, `C116_forecast_false`, `C116_varpro_false` |
| D130 | C116 | of two modes with equal eigenvalues the first is drawn in the colour of the other | `C116_equal_false` |
| D131 | C117 | `plot_eigs_mrdmd(level=0)` draws all levels | `C117_level_false` |
| D132 | C118 | mrCOSTS with the default `transform_method=None` raises ValueError in `fit`: COSTS does not accept None | `C118_default_false` |
| D133 | C118 | mrCOSTS without `n_components_array` and `cluster_sweep` raises TypeError (`None[n]`) | `C118_defaults_false` |
| D134 | C118 | a second fit with `cluster_sweep=True` always raises ValueError, also after a failed one | `C118_refit_false` |
| D135 | C118 | NaN in `n_components_array` is replaced in the first fit and not swept again | `C118_nan_false` |
| D136 | C118 | step sizes or ranks shorter than the window lengths: the rest is not fitted, no error until the global clustering | `C118_lengths_false` |
| D137 | C119 | after a second fit `global_cluster_omega` clusters the eigenvalues of the first fit (`_da_omega` is not reset), and old classes are still reported | `C119_refit_false` |
| D138 | C120 | levels with the same window length overwrite each other's file | `C120_same_window_false` |
| D139 | C120 | levels are sorted by window length on reading | `C120_order_false` |
| D140 | C120 | `transform_method` is not restored by `from_netcdf` | `C120_transform_false` |
| D141 | C121 | the default sweep range is empty for `svd_rank` below 4, including 0 (automatic): ValueError | `C121_small_rank_false` |
| D142 | C121 | a misspelt `score_method` of the global sweep gives scores 0 and the first number | `C121_method_false` |
| D143 | C122 | plots of a level ignore `costs_recon_kwargs` and show another input than the one fitted | `C122_kwargs_false` |
| D144 | C122 | negative levels raise UnboundLocalError in the plots | `C122_errors` |
| D145 | C123 | `COSTS.periods` before clustering raises TypeError instead of ValueError | `C123_errors` |
| D146 | C124 | `plot_mode_uq(plot_conjugate_pairs=False)` takes every second mode: wrong for real modes and when a pair is stronger than the real mode | `C124_odd_false`, `C124_real_false` |
| D147 | C125 | `HAVOK.plot_summary` excludes the last active time of each burst, so that bursts of one time are invisible | `C125_end_false` |
| D148 | C125 | `HAVOK.plot_summary` raises IndexError if the forcing is never active | `C125_quiet_false` |
| D149 | C125 | `true_switch_indices`: unsorted indexes are lost, lists raise TypeError | `C125_switches_false` |
| D150 | C126 | the weights of COSTS are centred one step late; the first one is negative | `C126_first_false`, `C126_symmetric_false` |
| D151 | C126 | `corner_sharpness=0` changes the sign of the data | `C126_zero_false` |
| D152 | C126 | `COSTS.fit` with one-dimensional times raises IndexError after its test of the size | `C126_time_false` |
| D153 | C127 | `save` of a wrapped DMD stores the DMD inside only; the post-processing is lost | `C127_save_false` |
| D154 | C127 | `wrapped[key]` raises TypeError | `C127_getitem_false` |
| D155 | C127 | `MrDMD(dmd=wrapped)` raises UnboundLocalError | `C127_mr_false` |
| D156 | C127 | `plot_summary` of BOPDMD with two wrappers takes the logarithm of continuous-time eigenvalues | `C127_summary_false` |
| D157 | C128 | LANDO rejects callables that are not Python functions | `C128_callable_false` |
| D158 | C128 | LANDO rejects kernels that need the dimension of the data (unless it is 5) | `C128_dimension_false` |
| D159 | C128 | `gamma=None` is accepted by the constructor, `analyze_fixed_point` raises TypeError | `C128_gamma_false` |
| D160 | C129 | with a selection, `plot_eig_uq` and `plot_mode_uq` draw the deviations of other modes | `C129_circles_false`, `C129_modes_false`, `C129_getitem_false` |
| D161 | C129 | `forecast` after bagging raises ValueError when a mode is inactive | `C129_forecast_false` |
| D162 | C130 | `nan` options give no warning | `C130_nan_false` |
| D163 | C130 | `maxiter=30.0` passes the check and raises TypeError in the fit; numpy integers are refused | `C130_floats_false` |
| D164 | C130 | unknown options are rejected by `fit` only | `C130_late_false` |
| D165 | C130 | constraint functions are tested on ten numbers when no rank is given; other callables are refused | `C130_function_false` |
| D166 | C131 | the padding of windows of smaller rank is clustered as frequency 0 and can take a band of its own | `C131_padding_false` |
| D167 | C131 | `"period"` raises ValueError with a window of smaller rank or a real eigenvalue | `C131_period_false` |
| D168 | C131 | a clustering method without `fit_predict` raises AttributeError instead of the intended ValueError | `C131_errors` |
| D169 | C132 | `plot_reconstructions` raises ValueError for a single band | `C132_single_false` |
| D170 | C132 | the plots change the dictionaries of the caller, so that a second plot keeps the colour scale of the first | `C132_kwargs_false` |
| D171 | C132 | the residual of `plot_time_series` is too small by the mean of the data | `C132_residual_false` |
| D172 | C132 | `plot_error` returns None, documented are figure and axes | `C132_error_false` |
| D173 | C132 | titles take 2 pi / centroid for the period whatever the transformation | `C132_title_false` |
| D174 | C133 | a negative eigenvalue makes the reconstruction of real data complex between two time steps | `C133_fraction_false` |
| D175 | C133 | `forward_backward=True` can give a single imaginary eigenvalue for real data | `C133_forward_backward_false` |
| D176 | C134 | `tikhonov_regularization` is multiplied by the norm of `X`, not its square, and so depends on the unit of the data | `C134_units_false` |
| D177 | C134 | `svd_rank=0` gives another rank when sensors that always show zero are added | `C134_rank_false` |
| D178 | C135 | DMDc does not move at all for `dmd_time["dt"]` below the original step | `C135_dmdc_step_false` |
| D179 | C135 | `HankelDMD(d=1, reconstruction_method=[0])` is accepted and reconstructs zero | `C135_hankel_weight_false` |
| D180 | C137 | `forward_backward=True`: the eigenvalues depend on the arbitrary signs of the singular vectors of `Y`; a rotation can get the eigenvalues 1, 1 | `C137_forward_backward_false` |
| D181 | C137 | equal singular values at the truncation: the eigenvalues depend on the choice of singular vectors | `C137_tie_false` |
| D182 | C138 | `BOPDMD` with `use_proj=True` and `mode_prox`: `atilde` belongs to the modes before, `A` to those after the function is applied (with bagging both to those after) | `C138_prox_false` |
| D183 | C138 | `mode_prox` gets one row per sensor if `use_proj=True`, one row per mode otherwise | `C138_prox_transposed_false` |
| D184 | C140 | `svd_rank` above the rank of the data: arbitrarily small noise produces an arbitrary additional eigenvalue | `C140_overrank_false` |
| D185 | C141 | linear kernel or `coef0=0`: every learnt model vanishes at the origin, so systems with a constant term are not learnt | `C141_constant_false` |
| D186 | C142 | increasing `gamma` can turn a zero amplitude into a non-zero one | `C142_sparser_false` |
| D187 | C142 | an exactly zero entry of the first `alpha` divides by zero in the soft thresholding: everything is NaN and nothing is ever zeroed | `C142_nan_false` |
| D188 | C143 | `DMDc` with `lag=l`: `frequency` is l times the frequency of the signal | `C143_lag_false` |
| D189 | C143 | `DMDc.reconstructed_data` with `dmd_time["dt"]` twice the original: not the response to controls held over the steps | `C143_dt_false` |
| D190 | C144 | `SubspaceDMD(opt=True)`: `_exact` is never set, AttributeError | `C144_subspace_false` |
| D191 | C144 | `DMDc(opt=True)`: exact modes with the equations of projected modes; amplitudes are not optimal | `C144_dmdc_false` |
| D192 | C145 | PiDMD circulant with fewer snapshots than states: the operator is truncated and does not even fit the data | `C145_circulant_few_false` |
| D193 | C146 | `MrDMD` with windows of different length on one level: an oscillation between the two thresholds is half taken, half left in the residual | `C146_unequal_false` |
| D194 | C147 | `PiDMD(uppertriangular, svd_rank=1)`: `operator.as_numpy_array` is neither the compression of `A` nor does it have an eigenvalue of `A` | `C147_truncated_false` |
| D195 | C147 | `PiDMD(diagonal)` with the default `compute_A=False` keeps rank-many modes and does not reconstruct the snapshots, with `compute_A=True` it does | `C147_compute_A_false` |
| D196 | C149 | a refit of DMD that raises after the operator (`rescale_mode`, amplitudes) leaves new snapshots and operator beside old modes, eigenvalues and times, with `fitted` true | `C149_dmd_false` |
| D197 | C149 | a refit of VarProDMD that raises leaves the new snapshots beside the old results | `C149_varpro_false` |
| D198 | C149 | HankelDMD refitted with fewer snapshots than `d` stores the new snapshots and keeps all old results | `C149_hankel_false` |
| D199 | C149 | zero-mean preprocessing around HankelDMD: after a refused refit the reconstruction is the old dynamics plus the new mean | `C149_wrapped_false` |
| D200 | C149 | a refit of DMDc that raises leaves `B` and basis of the previous data beside the new snapshots | `C149_dmdc_false` |
| D201 | C150 | `pinv_diag` of OptDMD has an absolute threshold: data in a large unit give zero operator, eigenvalues and modes | `C150_optdmd_small_false` |
| D202 | C150 | DMDc without `B` and with a feedback: the unit of the control input changes the eigenvalues | `C150_dmdc_units_false` |
| D203 | C151 | with `exact=True` the prediction of the training pairs can be worse at a larger `svd_rank` | `C151_exact_false` |
| D204 | C152 | The amplitude of a mode is its size at time 0, and modes whose amplitude is below 10 eps of the largest are dropped. So the forecast depends on the origin of time: with the samples of `1 + exp(-t)` at 0 and 1 it is exact, with the clock set back by 100 the decaying part is lost. | `C152_origin_false` |
| D205 | C152 | The scales of Marquardt are clipped to `[1e-6, 1]`, numbers with the unit of data times time. The steps of the iteration, and the result after `maxiter` of them, depend on the unit of time. | `C152_unit_false` |
| D206 | C153 | A signal at half the sampling rate has vanishing means of neighbouring snapshots. `_initialize_alpha` then inverts the zero matrix `diag(s)` (`LinAlgError`), although the data are one exponential. | `C153_guess_false` |
| D207 | C155 | the Marquardt scaling is clipped to `[1e-6, 1]` in absolute terms (bopdmd.py L619-620), so the iterates of BOP-DMD depend on the unit of the data: samples 3/2, 1/2 give -2/5 after one step, samples 3, 1 give -4/7 | `C155_unit_false` |
| D208 | C156 | the backward operator of forward-backward DMD is regularized with the norm of `X` instead of `Y` (`_norm_X`, dmdoperator.py L79-87): reversed pairs do not give reciprocal eigenvalues | `C156_tikhonov_false` |
| D209 | C157 | a Tikhonov regularization can make eigenvalues grow: 8/9 becomes 55/54 | `C157_eigenvalues_false` |
| D210 | C157 | with `exact=True` a Tikhonov regularization can improve the prediction of the training pairs | `C157_exact_false` |
| D211 | C158 | `PiDMD(manifold="circulant")` removes one of two opposite frequencies of equal weight: for real snapshots, fewer than states, the operator and the reconstruction are complex with the default options | `C158_circulant_split_false`, `C158_circulant_false` |
| D212 | C158 | the Toeplitz operator is the one with the smallest eigenvalues of a circulant extension whose last eigenvalue is 0: if the snapshots do not determine it, it is complex for real snapshots | `C158_toeplitz_false` |
| D213 | C160 | the modes that `SpDMD` discards depend on the unit of the data even if `gamma` is given in that unit | `C160_units_false` |
| D214 | C161 | `PiDMD(manifold="circulant_unitary", compute_A=True)` with fewer frequencies than states has an operator with kernel | `C161_circulant_compute_A_false` |
| D215 | C162 | forecasts of `VarProDMD` depend on the origin of time if the optimizer evaluated a rejected point last | `C162_stale_false` |
| D216 | C162 | the initial guess of `VarProDMD` is multiplied by the unit of time instead of divided, so the start of the optimisation depends on the unit | `C162_unit_false` |
| D217 | C163 | `MrDMD.fit` subtracts in place from the array whose pieces the leaves keep as `snapshots`: after the fit every leaf holds what all levels together left | `C163_leaf_false` |
| D218 | C163 | a matrix given to `fit` is kept without copy; `DMDc.reconstructed_data` and `EDMD.eigenfunctions` read it after the fit, so later writes of the caller change them | `C163_array_false`, `C163_dmdc_false`, `C163_edmd_false` |
| D219 | C163 | `BOPDMD.fit_econ` and `VarProDMD.fit` keep the vector of times without copy and compute `dynamics` from it | `C163_times` |
| D220 | C164 | `pinv_diag` compares complex eigenvalues with its threshold; numpy does so by the imaginary part if the real parts agree, so one mode of a conjugate pair of real data can be zero and the other not | `C164_optdmd_false` |
| D221 | C167 | `HAVOK(structured=True)` subtracts the embeddings of two separate decompositions (havok.py L384-387) whose signs are not matched. For the snapshots (4,0), (0,2), (1,0) with `dt = 1` one choice of a sign gives the eigenvalue 0, the other -2. | `C167_structured_false` |
| D222 | C23 | `HankelDMD.reconstructed_data` on a window before the training window slices with a negative index: from `-a` to `-b` (`2 <= b <= a <= d`) it returns the states at `d - a, ..., d - b` without a warning | `C23_before_columns_false` |
| D223 | C168 | With `permute=True` (default) and a positive `dict_tol` the learnt LANDO model depends on the random order of the snapshots: for `dict_tol = s^2` the snapshots (s,0), (s,s) give the dictionary of one or of the other and different predictions. | `C168_order_false` |
| D224 | C168 | `dict_tol` is absolute: snapshots from which LANDO with the linear kernel learns the system exactly give a wrong model in smaller units (for any positive `dict_tol < 1`, with factor `sqrt(dict_tol)`). | `C168_units_false` |
| D225 | C169 | The unit of a single channel changes the eigenvalues of a truncated DMD: of two independent channels with factors 1 and 3, one mode finds 1 or 3 according to the unit. | `C169_truncated_false` |
| D226 | C169 | With fewer snapshots than channels, the unit of a single channel changes the eigenvalues also at full rank (3 becomes 1200/169 for one pair of snapshots). | `C169_few_false` |
| D227 | C105 | With one mode and one band the artificial initial guess of COSTS has two values. | `C105_single_false` |
| D228 | C170 | `ParametricDMD([dmd] * k, ...)` is accepted, and the forecasts for all parameters are those of the last one. | `C170_same_dmd_false` |
| D229 | C170 | Two instances given the same POD object: after the fit of the second one the first one expands its forecasts with the POD of the second. | `C170_same_pod_false` |
| D230 | C170 | A `fit` in which the DMD of one parameter raises leaves the instance with the new parameters and POD, new DMDs up to that parameter and old ones after it. | `C170_failure_false` |
| D231 | C171 | With `global_svd=True` (default) the projection basis is that of the data including their mean, although the mean is removed from every window: a variable with a large constant takes a place in the basis, and for rank 1 the projection of every window is 0. | `C171_global_false` |
| D232 | C171 | For times in decreasing order `fit` counts from the first time of a window and `scale_reconstruction` from the smallest, so every mode is multiplied by `exp(omega T)`. | `C171_reverse_false` |
| D233 | C172 | `OPT_DEF_ARGS` has `gtol=1e-8`, which `least_squares` compares with the gradient of half the squared residual: a number in the squared unit of the data. For all data there is a unit (metres to gigametres, say) in which the optimisation stops at its starting point and `VarProDMD` returns the finite-difference initial guess as the exponents, without a warning. | `C172_unit_false` |
| D234 | C178 | mrCOSTS uses `global_svd=True` by default (mrcosts.py L300-302): the projection basis of every level is computed from data that contain the background (or the low frequency component), while the windows are fitted without their means; a background can take the place of the signal in the basis. | `C171_global_false` |

## 6. Checks

`lake build` from a clean checkout; `grep -nE "sorry|admit|^axiom |native_decide|bv_decide|implemented_by|unsafe "`;
`#print axioms` for every theorem named in MANIFEST.json (script in
`tools/axioms.sh`).
