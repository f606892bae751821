# Design of the formal model of dseuss/mpnum

## 1. Approach

The Python package is modelled in Lean 4 as shallow, total, computable functions
which follow the Python functions branch by branch.  Exceptions are values
(`Except PyErr α`).  In-place methods are state transformers (`MPA → Except PyErr MPA`).

Layers (modules below `lean/Verif/`):

| layer | modules | content |
|---|---|---|
| numpy model | `Np/*` | `NDArray`: a shape (`List ℕ`) and an entry function on multi-indices; `reshape` (row major), `transpose`, `rollaxis`, `tensordot`, `concatenate`, `trace`, indexing, ... |
| specification | `Spec` | the matrix product formula of the mpnum documentation (`entry`), left/right isometry (`LCanon`, `RCanon`), observable array equality |
| code model | `MPStruct`, `MPArray/*`, `Utils/*`, `MpsMpo`, `Linalg`, `Povm/*`, `Factory`, `Special`, ... | one definition per Python function, with file/line citations |
| properties | `Props/Cxx` | one file per property with the theorems and the non-vacuity examples |

Scalars are elements of an arbitrary commutative star ring (`[CommRing R] [StarRing R]`),
of a field where the code divides, or of `ℝ`/`ℂ` where the code uses order, norms or positivity.

Two arrays are *observably equal* if they have the same shape and agree on all
in-range indices (the entry function of the model is total; what it does out of
range is not observable and no theorem speaks about it).

## 2. What is modelled and what is not

### Modelled, function by function

| file | modelled | not modelled |
|---|---|---|
| `mpstruct.py` | everything | – |
| `mparray.py` | everything | numpy dtypes except in `DType` (C73) |
| `mpsmpo.py` | everything | – |
| `linalg.py` | `eig`, `eig_sum` and all helpers, `sandwich` helpers | logging |
| `special.py` | everything | – |
| `factory.py` | everything | the distribution of the random numbers |
| `_named_ndarray.py` | everything | – |
| `utils/array_transforms.py`, `utils/pmf.py` | everything | – |
| `utils/extmath.py` | `matdot`, `block_diag` (inside `_local_add`), `truncated_svd`, `partial_trace`, `mkron`, `randomized_svd`, `approx_range_finder` | sparse and linear-operator arguments of `randomized_svd` |
| `utils/physics.py` | everything | floating point in `cXY_E0` (real numbers in the model) |
| `povm/localpovm.py` | everything | – |
| `povm/mppovm.py` | everything | – |
| use by a program | variables, numpy buffers and views, `LocalTensors` and `MPArray` objects, aliases (`Program/Store`); the same programs on dense tensors (`Program/Dense`); threads and schedules for `canonicalize`, `norm`, `compress(method='svd')`, `*=` and methods that only read (`MPArray/Threads`) | threads in the other functions (they work on objects of their own, apart from their operands, and count as methods that only read), garbage collection |
| `_testing.py` | everything | comparison of dtypes in `assert_mpa_identical` |
| tests, docs, examples | – | all |

### Simplifications that hold everywhere

* floating point: all arithmetic is exact, except in C75, C77-C79, C81-C84 and C87-C92 (relative errors as parameters for `canonicalize`, `norm`, `compress('svd')`, `to_array`, `dot`, `inner`, `sandwich`, `partialtrace`, `trace`, `sum`, `reductions_mpo`, `pmps_to_mpo`, `mps_to_mpo`, `pmps_dm_to_array`, `prune`, `expectations` of density matrices, `+`, `-`, `normdist`, compressed sums, `from_array` and `pmf_as_array`); no rounding, overflow, NaN; dtype promotion only in `DType` (C73).  Where numpy returns `nan` or
  `inf` the model either raises (`zeroDiv`) or the theorem excludes the case; this is said at each definition;
* numpy/scipy/LAPACK themselves: array manipulation functions are modelled by their documented semantics (`Np/*`);
* the routines `numpy.linalg.qr`, `numpy.linalg.svd`, `svdfunc`, `eigs`, `pinv` are parameters of the model and theorems
  assume only their mathematical contract:
  `QRSpec` (`q r = a`, `q` has orthonormal columns, `min(m, n)` of them),
  `SVDSpec` (`u s v = a`, orthonormal columns/rows, `s` non-negative and non-increasing, `min(m, n)` values),
  `SVDFuncSpec` (the leading part of such a decomposition),
  `EigsSpec`/`EigsMin`/`EigsExt` (one eigenpair of a Hermitian matrix with a unit eigenvector, of the smallest eigenvalue,
  depending only on the entries of its arguments), `PinvSpec` (`P X P = P`).
  Every contract is shown to be satisfiable (`exists_QRSpec`, `exists_SVDSpec`, `exists_eigs`, `exists_PinvSpec`);
* random numbers: in `Factory` a generator is a pair of arbitrary infinite streams and theorems hold for all of them; in
  `Povm/Sampling` it is an ideal generator (`PMF`), every call of `rng.choice` being independent, and the test of
  `rng.choice` that the probabilities sum to one is exact;
* h5py is a pair of finite maps; scipy sparse matrices are arrays; Python iterators are the list of their items except
  where a generator interleaves with mutation of its operand (`singularvals`, and all four generators in C76);
* warnings, logging, `repr`, performance, memory, and Python's recursion limit are not modelled.

## 3. Trusted base

Lean's kernel; the axioms `propext`, `Classical.choice`, `Quot.sound` (checked with `#print axioms`; no others, no
`sorry`, no `native_decide`); the faithfulness of the definitions in the code model to the cited Python lines;
the semantics of numpy as written down in `Np/*`; the contracts of the numerical routines listed above.

## 4. Plan per property

(`properties.jsonl` has the full statements.)

| id | modelled | how it is proved |
|---|---|---|
| C01 | `to_array`, `_ltens_to_array`, `matdot` | induction over sites: partial contraction = matrix product |
| C02 | `from_array`, `_extract_factors` with `qr` as parameter | induction over the leg partition |
| C03 | same, `full_rank` | arithmetic of `min` along the recursion |
| C04 | `from_kron` | induction |
| C05 | `__add__`, `__sub__`, `_local_add` | block matrix products by induction; single-site branch separately; error branch |
| C06 | `__mul__`, ... | product at one site; canonical claims outside `[l, r)` are untouched |
| C07 | `sumup` | as C05 for n blocks |
| C08 | `dot`, `_local_dot` for arbitrary axes | entry formula for `tensordot`/`rollaxis`/`reshape`, Kronecker product induction |
| C09 | `inner`, `norm` | C08 + isometry induction from both sides |
| C10, C11 | `canonicalize` and both sweeps | loop invariants |
| C12, C13 | `LocalTensors` and the in-place API as a transition system | invariant by induction over operation histories; counterexamples where the code breaks it |
| C14–C24 | the functions named | entry formulas |
| C25 | `_local_sum_identity` | automaton invariant: content of each block row |
| C26 | `regular_slices` over the integers | arithmetic |
| C27, C28 | SVD sweeps with `svd` as parameter | the sweep is one orthogonal projection |
| C29 | `_adapt_to` | loop invariant on environments; on two sites with `var_sites=2` the block is the whole chain, so that one sweep is one truncated SVD and optimal |
| C30 | `pad_ranks`, `full_rank` | zero blocks |
| C31 | `dump`, `load` on a key-value store; `dump` as its sequence of writes for crash points | injectivity of decimal printing; after a proper prefix of the writes a dataset is missing that `load` asks for |
| C32 | axis permutations | index arithmetic |
| C33–C35 | mpsmpo | entry formulas, memo table invariant, canonical form invariant |
| C36–C38 | linalg | named tensor contractions, loop invariants |
| C39 | special | isometry induction |
| C40, C41 | localpovm for every dimension | finite sums over index pairs |
| C42–C47 | mppovm | entry formulas, list counting, finite probability |
| C48 | pmf | real arithmetic |
| C49 | factory | entry formulas |
| C50 | physics | C25 + inject |
| C51 | object store with aliasing | frame invariant over programs |
| C52 | singularvals | invariant at every yield |
| C53 | named_ndarray | index permutation |

## 5. Extensions after the first list

| id | modelled | how it is proved |
|---|---|---|
| C54 | programs of API calls over many variables | simulation: object store → values → dense tensors |
| C55 | SVD compression against the best approximation | Eckart–Young for finite sums, then one projection per bond |
| C56 | `match_elems` (povm/mppovm.py:564-657) with the contractions it uses | every intermediate array computed from the elements; Cauchy–Schwarz in the Hilbert–Schmidt space |
| C57 | `est_pmf_from`, `_elemsum_identity`, `_fill_outcome_mpa_holes`, `est_pmf_from_mpps` | value of the estimate as a sum over samples; expectation over all sample arrays |
| C58 | `_mppl_lfun_estimator`, `lfun_from`, `est_lfun_from` | lifted from C46, C47 and C57 |
| C59 | `pauli_mpp`, `pauli_mpps` and the constructors of MP-POVMs | tensor products of POVMs are POVMs; induction over the parts |
| C60 | functions of one MP-POVM for several states and of a list of MP-POVMs: `pmfs_as_array`, `block_pmfs_as_array`, `pmf`, `pmf_as_array`, `sample`, `est_pmf_from` | lifted from C34, C35, C42, C46 and C57; the state is carried through the list |
| C61 | `randomized_svd`, `approx_range_finder`, `_standard_normal`; QR, LU and SVD are oracles with contracts, the draw is an arbitrary array | Eckart–Young and interlacing for matrices; power iterations stay in the range; a proper subspace has measure zero for an atomless product measure |
| C62 | `partial_trace`, `mkron` | induction over the list of sites from its end; induction over the factors |
| C63 | `cXY_E0`, and the Hamiltonian of C50 on spin configurations | Jordan–Wigner operators anticommute; on each parity the Hamiltonian is a constant plus a sum of squares `T* T` over plane waves (`C63Alg`), so the constant is a lower bound; a vector all `T` annihilate is built from the vacuum and has the right parity; the constants of the two parities are compared through a power series of the square root with one sign (`C63Sum`); `gamma > 1` by rotating every second spin |
| C64 | `_testing.compression_svd` (`Testing`), `compress` as in C27 | singular values are unique because both lists satisfy the Eckart–Young bound; the truncated tensor is `p(A A*) A` for an interpolating polynomial `p`, which does not mention the decomposition; induction over the bipartitions |
| C65 | the other functions of `_testing.py` with the tolerance of `assert_array_almost_equal` | a check is a conjunction of decidable comparisons (`Decides`), closed under sequencing and loops |
| C66 | `compress` as in C27 | the number of nonzero singular values across a cut is the smallest number of products the tensor is a sum of (`RankLe`); the cuts of C27 discard only zeros, so the tensor and with it every later rank stays the same; induction over the cuts |
| C67 | the constructors of C59 and the probabilities of C42 and C60 | the trace with a tensor product is an iterated trace, so completeness of two factors gives completeness of the products (`InfoComplete.tensor`); induction over the sites; C41 for one site |
| C68 | `sample` (C46) followed by `est_pmf` (C45) or `est_lfun` (C47) as one randomised program | the law of C46 fixes the distribution of the program; moments of independent samples as in C47; Chebyshev's inequality as a finite sum |
| C69 | `to_array_global`, `from_array_global` | composition of C01/C02 (dense arrays) with C32 (axis permutation); the specification names the value of leg `k` of site `n` and writes it both ways round |
| C70 | in-place methods as sequences of reads, calls and writes (`MPArray/Interrupt.lean`) with an arbitrary schedule of exceptions; the object keeps the writes made before the exception | the object after an interrupted loop is the state after a prefix of its steps; the loop invariants of C10 and C27 hold after every number of steps; exceptions inside `LocalTensors.update` are excluded by hypothesis, and two theorems show what they do |
| C71 | `inner`, `norm`, `normdist`, `+`, scalar `*` | the represented tensors are vectors of a Euclidean space over the finite set of physical indices; Mathlib's inner product and norm |
| C72 | `dot`, `adj`, `trace`, `inner`, `+` | sums over the contracted indices, exchanged and reordered |
| C73 | `DType`: `_local_add`, `+`, `-`, `*`, `sumup`, `block_diag`, `local_sum`, `to_array`, `dtype` on arrays with an element type | every array operation preserves the set of values of a type, so that conversions to a larger type change nothing; the typed program then equals the one without types, errors included |
| C74 | `reductions_mpo`, `reductions_pmps`, `embed_slice`, `local_sum`, `dot`, `trace` (no new definitions of code) | from the values in C34, C35, C25, C08, C20: partial traces compose, are positive (test vectors supported on one outer index) and are dual to the embedding with identities |
| C75 | `canonicalize`, `norm` with the product of arrays and the 2-norm as parameters (`MPArray/Rounding.lean`; with the exact ones they are the definitions of C09-C11 by `rfl`) | one step: triangle inequality for the two errors, transported by the operator norms of the other sites; sweeps: induction with weights for all sites; norm: two-sided bounds for chains of near-isometries; the contracts follow from backward stable QR and from the componentwise error model |
| C76 | the generators as coroutines: a state per suspended `yield`, `next`, and schedules of `next` and in-place calls on a shared object (`Lazy.lean`) | one induction over the schedule for all iterators, with an invariant per iterator (windows left; for `reductions_mpo` the remembered traces are those of the object); `singularvals`: the run is the truncated sweep of C52; the unsafe schedules by evaluation on chains with one entry, for every QR and SVD |
| C77 | `compress('svd')` with every numerical routine a parameter (`Arith`, `MPArray/RoundingSvd.lean`; with exact routines it is the `compress` of C12-C14, `C77_model_exact`) | polar decomposition: a site that is canonical up to `ε` is within `ε` of an exact isometry (`RoundingPolar`); one step is an exact truncation plus an error of `stepErr` times the norm of the centre (`RoundingSvdStep`); the sweep is compared with the chain of exact isometries (`RoundingShadow`), its truncations with Eckart-Young at each bond (`RoundingChain`); the sweep to the left is the mirror image |
| C78 | `to_array`, `dot`, `inner` with `numpy.tensordot` a parameter (`MPArray/RoundingDot.lean`; with the exact one it is the model of C01-C10, `C78_model_exact`) | one perturbation bound for the fold of a chain, with operator norms of all its segments (`RoundingFold`); operator norms of segments from the norms of the local tensors, or from isometries around a centre (`RoundingSeg`); the chain that `inner` contracts is the product of the two chains (`RoundingInner`) |
| C79 | `+`, `-`, `normdist` with `numpy.add`, QR, `matdot` and `numpy.linalg.norm` as parameters (`MPArray/RoundingNormdist.lean`) | the left-to-right sweep over a chain with weights that need not be canonical (`RoundingOpen`): the centre, followed by any segment of the rest, stays bounded; operator norms of all segments of the chain of `x + y` from those of `x` and `y` (`RoundingAdd`) |
| C80 | `MPArray.size` (`Props/C80.lean`) | telescoping along the chain of local tensors; monotonicity of the storage formula in the ranks, with C10, C27 and C66; orthonormal columns bound the ranks of canonical tensors |
| C81 | `compress` after `__add__`/`__sub__` with inexact routines (`MPArray/RoundingOpenL.lean`, `Props/C81.lean`) | the weights of C79 for both sweep directions (mirror images of chains) bound the first canonicalisation; C77 bounds the rest |
| C82 | `fromArray` with an inexact QR decomposition (`MPArray/RoundingFromArray.lean`, `Props/C82.lean`) | induction over the sites: the error of one decomposition plus the error of the remaining factorisation, multiplied by an almost-isometry; C77 and C78 give the consequences for `compress` and `to_array` |
| C83 | `pmf_as_array` with an inexact `numpy.tensordot` (`Povm/RoundingPmf.lean`, `Props/C83.lean`); the implementation `'default'` is a parameter, `project_pmf` is exact | the relation "same shape, norm at most N, distance at most (g - 1) N" is preserved by each contraction (N multiplies, g grows by 1 + u), transposition and reshape; compared with the exact run of C42; the projection is analysed with C48 and the Cauchy-Schwarz inequality |
| C84 | the model of C83 (`Povm/RoundingPmfCond.lean`, `Povm/RoundingPmfMixed.lean`, `Props/C84.lean`, `Props/C84Mixed.lean`) | every step of the loop, written with square roots of the POVM elements (Kraus form), is a map from matrices to families of matrices; a segment of steps amplifies errors by at most sqrt(R) if its sites are left-canonical, and by at most R if they are right-canonical, independent of its length, because the Kraus operators of the segment form an isometry (or their adjoints do); discrete Gronwall argument over the sites; a canonical centre of a normalised state has operator norm at most one |
| C85 | the existing models of the functions (`Props/C85.lean`, `Props/C85Args.lean`, `Props/C85Rest.lean`) | inversion of the successful runs: every check on the path to a result must have passed; together with the theorems on admissible arguments this is an equivalence for the constructors, `vleg2leg`, `split`, `trace`, `pack_samples` and `unpack_samples` |
| C86 | in-place methods as threads, sequences of reads and writes of single attributes of an object (`MPArray/Threads.lean`); a schedule is any list of thread names | a thread alone does what the function on values says (`MPArray/ThreadsLemmas.lean`); what a thread still has to do depends only on the objects it may access, by induction over the schedule (`Props/C86.lean`); the races are runs of two threads for an arbitrary QR routine (`Props/C86Race.lean`) |
| C87 | `sandwich` with a function for `numpy.tensordot` that has a relative error (`Linalg/RoundingSandwich.lean`) | induction over the sites with a bound for the norm of one exact step; for tensors with a bounded operator norm in any direction this bound has only the Frobenius norm of the operator's tensor (`Linalg/SandwichOp.lean`); the weights of canonical forms are those of C78 (`Props/C87.lean`) |
| C88 | `partialtrace` and `trace` with functions for `numpy.trace` and `numpy.tensordot` that have a relative error (`MPArray/RoundingTrace.lean`) | one trace per site by the Cauchy-Schwarz inequality; the errors of lists of tensors are carried through the removal of sites without legs and through `to_array` by induction (`Props/C88.lean`) |
| C89 | `MPArray.sum` with functions for `numpy.ndarray.sum` and `numpy.tensordot` that have a relative error (`MPArray/RoundingSum.lean`) | one sum per site by the Cauchy-Schwarz inequality; the lists of tensors as in C88 (`Props/C89.lean`) |
| C90 | `reductions_mpo` with its dictionaries and `pmps_to_mpo`, with functions for `numpy.trace` and `numpy.tensordot` that have a relative error (`RoundingReductions.lean`) | the exact run and the run with errors are followed side by side; the entries of the dictionaries are related by error bounds that depend only on the number of sites; `pmps_to_mpo` is a case of C78 (`Props/C90.lean`) |
| C91 | `expectations`, `pmf` and `pmf_as_array` for density matrices, with `prune`, with functions for `numpy.trace` and `numpy.tensordot` that have a relative error (`Povm/RoundingExpect.lean`) | the error bounds of all local tensors of a reduced operator (C90) are carried through `ravel` and the contraction with `probability_map`, whose local tensors have the norms of those of the MP-POVM, then through `prune` and `to_array`; the final projection is that of C83 (`Props/C91.lean`) |
| C92 | `pmps_dm_to_array`, `mps_to_mpo` and `prune` with a function for `numpy.tensordot` that has a relative error (`RoundingDm.lean`) | induction over the sites: the loop of the exact function and that with errors are followed side by side; the sum over the array is a sum over pairs of indices (`Props/C92.lean`) |

## 6. Disagreements between code and documentation, proved as theorems

| theorem | finding |
|---|---|
| `C05_add_outcomes`, `C05_add_not_symmetric` | `x + y` does not compare the shapes: inner legs of size one of the second summand are broadcast, so `x + y` can succeed where `y + x` raises `ValueError` |
| `C08_virtual_leg` | `dot` with an axis that is out of range by one contracts a virtual leg |
| `C09_inner_other_legs` | `inner` accepts tensors with different legs if their numbers of entries agree at every site |
| `C12_negative_index` | `lt[-1] = t` (a negative index) sets wrong canonical-form bounds |
| `C12_left_meets_right`, `C12_meeting_breaks` | two claimed updates may make the left and right claims overlap |
| `C13_slice_length_unchecked`, `C13_slice_ndim_unchecked` | slice assignment checks neither the number of tensors nor their legs |
| `C13_slice_string` | `update(slice, tens, 'left')`: the string is iterated letter by letter, so only the first four sites are replaced (five for `'right'`) and the claim is dropped; documented is that the value is repeated for each site |
| `C15_short_list_truncates`, `C20_short_list_truncates` | a list of shapes/axes shorter than the chain silently drops sites |
| `C16_split_no_legs` | `split_sites` does not split a site without legs |
| `C17_leg2vleg_wrong_form` | `leg2vleg` may claim right-canonical sites that are not |
| `C17_split_last` | `split(len - 1)` raises `IndexError` |
| `C18_first_none` | `sum` with a per-site list that begins with `None` raises `TypeError` although documented |
| `C19_axis_iter_order` | `axis_iter` yields in the opposite order of its docstring |
| `C23_missing` | `inject` with `None` in a list of tensors raises `TypeError` although documented |
| `C24_negative_start`, `C24_overhang_ignored` | `partialdot` accepts a negative start (as zero) and cuts an overhanging factor |
| `C25_regular_ignores_length` | `local_sum` with regular slices ignores `length` |
| `C27_zero_overlap` | the overlap of `compress` can be 0 although the docstring says `(0, inf)` |
| `C29_start_returned`, `C29_overlap_fails` | `compress('var')` with `num_sweeps=0` or `var_sites > len` returns the start vector and a wrong overlap |
| `C30_single_site` | `pad_ranks()` of one site raises `ValueError` |
| `C31_failed_dump_corrupts` | `dump` into an occupied group fails after replacing its attributes |
| `C36_sandwich_unequal_lengths`, `C39_inner_prod_mps_length_unchecked` | lengths of the operands are not compared |
| `C37_no_sweeps`, `C37_var_sites_too_large` | `eig(num_sweeps=0)` raises `UnboundLocalError`; `var_sites = len` is rejected |
| `C42_mps_fast_fails` | `pmf_as_array` with an MPS and `impl='pmps-ltr'` or `'pmps-symm'` always raises `IndexError` |
| `C43_embed_negative`, `C43_repeat_gauge` | `embed` accepts a negative start site and returns a chain of another length; `repeat` with a cut copy depends on the scaling of the factors |
| `C46_no_outcomes` | `sample(method='cond')` raises if every site has one outcome |
| `C47_est_lfun_few`, `C47_list_weights_ignored` | `est_lfun` with at most one sample divides by zero; `MPPovmList.est_lfun` ignores `weights` |
| `C49_generate_long_rank_cut`, `C49_local_ham_ignores_randstate` | a rank list that is too long is cut; `random_local_ham` ignores `randstate` |
| `C50_sparse_one_term`, `C50_last_term_order` | `sparse_cH` with one term raises `UnboundLocalError`; the last term acts on sites `(0, N-1)` |
| `C51_returns_operand` | `+x`, `group_sites(1)` and `split` outside of the chain return the operand itself, so a later in-place call changes both |
| `C51_wrap_shares`, `C51_user_array` | `MPArray(x.lt)` shares the tensors with `x`, and `MPArray([a])` keeps the array of the caller: `a[...] = …` changes the MPA |
| `C56_reject` | `match_elems` raises `TypeError` (item assignment to a numpy scalar) if `self` has one outcome only; the duplicate check sees only duplicates that have a partner in the other POVM |
| `C57_spurious` | `est_pmf_from` requires the estimates to sum to the fraction of the identity for the samples at hand. This is not satisfied in general although the documented requirement is: for a measurement that fails with probability one half, every odd number of samples is rejected with `AssertionError` |
| `C58_weights_truncated` | `lfun_from` adds `other_weights` up in an integer array, so fractions are dropped: with all weights below one it returns `(nan, nan)` whatever the POVMs are |
| `C58_single_sample` | `est_lfun_from` raises `ZeroDivisionError` if any POVM in `other` has a single sample, also if this POVM is not needed |
| `C58_lfun_from`, `C58_unbiased` | `lfun_from` returns the variance for one sample of every POVM; the mean square error of `est_lfun_from` has every term divided by the number of samples |
| `C59_pauli_mpp_large`, `C59_pauli_mpps_large` | `pauli_mpp` raises `AssertionError` for local dimensions from 12, `pauli_mpps` from 17: an MP-POVM may have at most 255 outcomes per site (`uint8` samples), and the documentation does not say so |
| `C60_list_pmfs_truncated` | `MPPovmList.pmfs_as_array` silently ignores MP-POVMs without a state and states without an MP-POVM |
| `C60_block_auto` | `block_pmfs_as_array` rejects `mode='auto'`, which all other functions for probabilities accept |
| `C61_unknown_normalizer` | `randomized_svd` accepts any `piter_normalizer`; for an unknown one (for example `'lu'` instead of `'LU'`) no power iteration is performed |
| `C61_dtype` | `randomized_svd` raises `ValueError` for integer and single-precision matrices |
| `C61_randomized_svd` | with `svdfunc=randomized_svd` only one of the two singular-vector equations holds (which one depends on `transpose`), unless the range of the matrix is captured; the contract of `svdfunc` used in C26–C28 needs the captured case |
| `C62_partial_trace_unsorted` | `partial_trace` does not check that the sites ascend (documented requirement): `[1, 0]` traces out sites 0 and 2 |
| `C63_large_gamma` | `cXY_E0` is documented for every `gamma`, but for `abs(gamma) > 1` it returns a number above the ground state energy (`-1` instead of `-2` for two sites and `gamma = 2`) |
| `C64_left_projectors` | `compression_svd(..., direction='left', retproj=True)` is documented to return the projectors, but `projectors = projectors.reverse()` replaces the list by `None` |
| `C66_default_keeps_zeros` | `compress(method='svd')` documents the default `relerr=0.0`, but the code's default keeps singular values that are zero: the bond of a product state stays as it was, while `relerr=0` reduces it to one |
| `C73_add_lossy` | `_local_add` takes the Python maximum of numpy types, which are only partially ordered: a `float64` MPA plus a `complex64` MPA with at least three sites silently loses the imaginary parts on the inner sites |
| `C73_local_sum_order`, `C73_local_sum_int` | `block_diag` uses the type of the first summand: `local_sum` raises `TypeError` for a real term before a complex one, and for three or more integer terms with the default embedding |
| `C73_dtype` | `dtype` is documented as the type of `to_array`, but is `float64` if all local tensors hold integers, while `to_array` returns integers |
| `usedSamples` in `C57_est_pmf_from` | `n_samples_used` is 1, not the number of samples, if the two POVMs have no common site with several outcomes |

Documentation only (not a theorem): the docstring of `compress(method='var')` says that `var_sites` defaults to 1 (the code:
2) and that the random start has the norm of `self` (the code does not normalise it).
