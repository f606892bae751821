{"id": "C01", "title": "to_array is the matrix-product formula", "statement": "For an MPArray whose local tensors fit together and whose outer bonds have size 1, to_array() returns an array whose shape is the concatenation of the per-site physical shapes and whose entry at a physical index is the matrix product A1[i1]*A2[i2]*...*AN[iN] of the local tensors selected by that index.", "quantifier": "all chain lengths, all numbers and sizes of physical legs per site (also different per site), all ranks, all entries", "why_tests_cant": "Tests evaluate a few random MPAs of 1-8 sites; the formula has to hold for every length, leg layout and rank.", "anchors": ["mpnum/mparray.py:MPArray.to_array", "mpnum/mparray.py:_ltens_to_array", "mpnum/utils/extmath.py:matdot"]}
{"id": "C02", "title": "from_array round trip", "statement": "MPArray.from_array(A, ndims).to_array() equals A for every array A and every admissible choice of ndims (integer or per-site); the reported canonical form (len-1, len) is true: every site but the last is left-isometric. from_array(A, ndims) with a sequence ndims succeeds exactly if the legs of A are those of the first k sites for some k >= 1 (further numbers are ignored); otherwise it raises StopIteration (too few legs in ndims) or AssertionError. With has_virtual=True the first and last leg of A become the outer bonds.", "quantifier": "all arrays, all partitions of the legs into sites, every QR routine that satisfies its contract", "why_tests_cant": "Random arrays of a few shapes only; the property depends on an unbounded recursion over sites and on reshape bookkeeping.", "anchors": ["mpnum/mparray.py:MPArray.from_array", "mpnum/mparray.py:_extract_factors"]}
{"id": "C03", "title": "Ranks from from_array are the generic full ranks", "statement": "The ranks of MPArray.from_array(A) at every bond equal min(product of leg sizes to the left, product of leg sizes to the right), i.e. full_rank of its shape; in particular no bond is ever larger than the exact-representation bound.", "quantifier": "all arrays with non-empty legs and all leg partitions", "why_tests_cant": "An unbounded family of shapes; tests check a handful.", "anchors": ["mpnum/mparray.py:MPArray.from_array", "mpnum/mparray.py:full_rank", "mpnum/mparray.py:_extract_factors"]}
{"id": "C04", "title": "from_kron is the tensor product", "statement": "MPArray.from_kron(factors) has rank 1 everywhere and its dense entry at (i1,...,iN) is the product of the factors' entries.", "quantifier": "all non-empty sequences of arrays of any shapes", "why_tests_cant": "Finite samples only.", "anchors": ["mpnum/mparray.py:MPArray.from_kron"]}
{"id": "C05", "title": "Addition and subtraction act entrywise on the dense tensors", "statement": "For MPArrays of equal length and equal physical shapes, (a+b).to_array() = a.to_array()+b.to_array(), (a-b) likewise; inner ranks add; shapes are unchanged; different lengths are rejected.", "quantifier": "all lengths (1 and more), shapes, ranks and entries", "why_tests_cant": "Block bookkeeping must be right for every length and every rank, including the single-site special case.", "anchors": ["mpnum/mparray.py:MPArray.__add__", "mpnum/mparray.py:MPArray.__sub__", "mpnum/mparray.py:_local_add", "mpnum/utils/extmath.py:block_diag"]}
{"id": "C06", "title": "Scalar multiplication, division and negation", "statement": "fact*mpa, mpa*fact, mpa/fact, -mpa and the in-place forms multiply the dense tensor by the scalar, whatever the current canonical form, and the canonical-form claim of the result is true.", "quantifier": "all MPAs, all canonical forms, all scalars (non-zero for division)", "why_tests_cant": "The factor is multiplied into a site chosen by the canonical form; every history of canonicalisation gives another site.", "anchors": ["mpnum/mparray.py:MPArray.__mul__", "mpnum/mparray.py:MPArray.__imul__", "mpnum/mparray.py:MPArray.__truediv__", "mpnum/mparray.py:MPArray.__neg__"]}
{"id": "C07", "title": "sumup equals repeated addition", "statement": "sumup(mpas, weights) represents sum_k weights[k]*mpas[k] (weights default to ones) for every number of summands and every chain length.", "quantifier": "all non-empty lists of MPAs with equal shapes, all weights", "why_tests_cant": "Unbounded number of summands, ranks and sites.", "anchors": ["mpnum/mparray.py:sumup", "mpnum/mparray.py:_local_add"]}
{"id": "C08", "title": "dot contracts the named physical legs", "statement": "dot(a, b, axes) represents the tensor obtained by contracting, at every site, the listed physical legs of a with those of b, with the free legs of a before those of b; for matrices/vectors with default axes it is the matrix product / matrix-vector product.", "quantifier": "all lengths, ranks, leg counts, and all valid axes arguments (positive, negative, several legs)", "why_tests_cant": "axes arithmetic with bond-leg offsets over arbitrary leg counts.", "anchors": ["mpnum/mparray.py:dot", "mpnum/mparray.py:_local_dot"]}
{"id": "C09", "title": "inner is the Hilbert-Schmidt inner product and norm the Frobenius norm", "statement": "inner(a,b) = sum_i conj(A_i) B_i; norm(a)^2 = inner(a,a) whatever the canonical form of a, and calling norm does not change the tensor that a represents.", "quantifier": "all MPAs reachable by any history of API calls", "why_tests_cant": "norm reads a single local tensor and relies on the canonical-form bookkeeping being true in every reachable state.", "anchors": ["mpnum/mparray.py:inner", "mpnum/mparray.py:norm", "mpnum/mparray.py:MPArray.canonicalize"]}
{"id": "C10", "title": "canonicalize keeps the represented tensor", "statement": "canonicalize(left, right) never changes the dense tensor nor the physical shape.", "quantifier": "all MPAs, all starting canonical forms, all admissible targets, every QR routine meeting its contract", "why_tests_cant": "Depends on the loop over sites in both directions and the interaction of both sweeps.", "anchors": ["mpnum/mparray.py:MPArray.canonicalize", "mpnum/mparray.py:MPArray._lcanonicalize", "mpnum/mparray.py:MPArray._rcanonicalize"]}
{"id": "C11", "title": "canonicalize reaches the requested form and rejects exactly the invalid requests", "statement": "After canonicalize(left, right) the reported form (l, r) satisfies l >= left, r <= right, l < r; out-of-range arguments raise IndexError, left >= right raises ValueError and the MPA is then unchanged. Without arguments the MPA ends up fully canonical except for one site.", "quantifier": "all lengths, all current forms, all integer/None/'afull' arguments, including negative ones", "why_tests_cant": "Argument space times reachable canonical forms is unbounded.", "anchors": ["mpnum/mparray.py:MPArray.canonicalize"]}
{"id": "C12", "title": "The canonical form claim is always true", "statement": "After any sequence of API calls (construction, canonicalize, compress, scalar multiplication, site assignment, transpose, conj, reshape, norm, ...) every site the MPA reports as left-/right-canonical really is an isometry in that direction.", "quantifier": "all histories of API calls, any length", "why_tests_cant": "Quantifies over histories.", "anchors": ["mpnum/mpstruct.py:LocalTensors", "mpnum/mpstruct.py:LocalTensors._update", "mpnum/mpstruct.py:LocalTensors.update", "mpnum/mparray.py:MPArray"]}
{"id": "C13", "title": "Bonds stay consistent", "statement": "After any sequence of accepted site assignments and in-place operations, neighbouring local tensors have equal bond sizes and the number of sites is unchanged; an assignment that would break a bond is rejected and leaves the MPA unchanged.", "quantifier": "all histories of LocalTensors updates (single sites and slices)", "why_tests_cant": "Quantifies over histories.", "anchors": ["mpnum/mpstruct.py:LocalTensors.update", "mpnum/mpstruct.py:LocalTensors.__init__"]}
{"id": "C14", "title": "Transpose, adjoint, conjugation, reversal", "statement": "T / transpose(axes) permute the physical legs site-wise, conj() conjugates, adj() does both, reverse() reverses the sites; dense tensors correspond, ranks are kept, and the canonical-form claim copied by T, transpose and conj stays true. T, conj, adj and reverse applied twice, and transpose followed by the inverse permutation, give back the tensor.", "quantifier": "all MPAs and all permutations of the legs", "why_tests_cant": "All permutations and leg counts.", "anchors": ["mpnum/mparray.py:MPArray.T", "mpnum/mparray.py:MPArray.transpose", "mpnum/mparray.py:MPArray.adj", "mpnum/mparray.py:MPArray.conj", "mpnum/mparray.py:MPArray.reverse"]}
{"id": "C15", "title": "reshape and ravel act on the dense tensor", "statement": "reshape(newshapes) and ravel() leave the row-major entries of each site in place: the dense tensor is the reshaped one, canonical claims copied stay true; shapes of the wrong size are rejected.", "quantifier": "all MPAs and all new shapes of equal size", "why_tests_cant": "All shapes.", "anchors": ["mpnum/mparray.py:MPArray.reshape", "mpnum/mparray.py:MPArray.ravel", "mpnum/mparray.py:_local_reshape"]}
{"id": "C16", "title": "group_sites and split_sites are inverse regroupings", "statement": "group_sites(k) merges k neighbouring sites without changing the dense tensor; split_sites(k) of it represents the same dense tensor with the original per-site shapes.", "quantifier": "all k, lengths divisible by k, uniform leg counts, ranks", "why_tests_cant": "All k and lengths.", "anchors": ["mpnum/mparray.py:MPArray.group_sites", "mpnum/mparray.py:MPArray.split_sites"]}
{"id": "C17", "title": "Bond cutting: vleg2leg, leg2vleg, split", "statement": "leg2vleg(pos) after vleg2leg(pos) gives back the same MPA; split(pos) returns the two halves whose contraction over the exposed legs is the original; the canonical-form claims of the results are true.", "quantifier": "all MPAs, all positions, all canonical forms", "why_tests_cant": "The claims depend on position and current canonical form.", "anchors": ["mpnum/mparray.py:MPArray.vleg2leg", "mpnum/mparray.py:MPArray.leg2vleg", "mpnum/mparray.py:MPArray.split"]}
{"id": "C18", "title": "sum over physical legs", "statement": "sum(axes) equals the dense sum over the listed legs; sum() is the sum of all entries.", "quantifier": "all MPAs, all axes specifications documented (one list for all sites or one per site, or None)", "why_tests_cant": "All leg sets.", "anchors": ["mpnum/mparray.py:MPArray.sum"]}
{"id": "C19", "title": "get, axis_iter and diag pick the right entries", "statement": "get(indices), axis_iter(axes) and diag(mpa, axis) return the dense slices they name, in the documented order.", "quantifier": "all MPAs, indices and axes", "why_tests_cant": "All shapes and indices.", "anchors": ["mpnum/mparray.py:MPArray.get", "mpnum/mparray.py:MPArray.axis_iter", "mpnum/mparray.py:diag"]}
{"id": "C20", "title": "partialtrace and trace", "statement": "partialtrace(mpa, axes) is the dense partial trace of the listed leg pairs at every site; trace(mpa) is the full trace.", "quantifier": "all MPAs, per-site axes or None", "why_tests_cant": "All lengths and leg layouts.", "anchors": ["mpnum/mparray.py:partialtrace", "mpnum/mparray.py:trace", "mpnum/mparray.py:_prune_ltens"]}
{"id": "C21", "title": "prune removes empty sites without changing the tensor", "statement": "prune(mpa) drops sites without physical legs (and, with singletons=True, sites whose legs all have size one), keeping the dense tensor up to dropped singleton legs.", "quantifier": "all placements of leg-less sites", "why_tests_cant": "Any pattern of empty sites at any position.", "anchors": ["mpnum/mparray.py:prune", "mpnum/mparray.py:_prune_ltens"]}
{"id": "C22", "title": "chain and localouter are tensor products", "statement": "chain(mpas) represents the tensor product along sites; localouter(a,b) the site-wise outer product.", "quantifier": "all lists / pairs of MPAs", "why_tests_cant": "All lengths and ranks.", "anchors": ["mpnum/mparray.py:chain", "mpnum/mparray.py:localouter"]}
{"id": "C23", "title": "inject inserts site tensors", "statement": "inject(mpa, pos, num, ten) represents the tensor product of mpa with the injected operators at the requested positions.", "quantifier": "all positions, multiplicities, tensors, several positions at once", "why_tests_cant": "Unbounded combinations of positions.", "anchors": ["mpnum/mparray.py:inject"]}
{"id": "C24", "title": "partialdot acts on the covered sites only", "statement": "partialdot(a, b, start_at) contracts the shorter MPA with the sites start_at.. of the longer one and leaves other sites alone.", "quantifier": "all lengths and offsets with the shorter one inside the longer one", "why_tests_cant": "All offsets.", "anchors": ["mpnum/mparray.py:partialdot"]}
{"id": "C25", "title": "embed_slice and local_sum", "statement": "embed_slice pads an operator with identities; local_sum(mpas, embed) equals the sum of all embedded terms, both via the generic path and via the compact automaton used by default.", "quantifier": "any number of terms of any common width", "why_tests_cant": "The automaton has different tensors near both ends; every width/number combination is a different case.", "anchors": ["mpnum/mparray.py:embed_slice", "mpnum/mparray.py:local_sum", "mpnum/mparray.py:_local_sum_identity", "mpnum/mparray.py:regular_slices"]}
{"id": "C26", "title": "regular_slices covers the range", "statement": "regular_slices(length, width, offset) yields windows of exactly that width, starting at 0 and stepping by offset, inside the range, with the last one ending at length.", "quantifier": "all positive lengths, widths, offsets with (length-width) divisible by offset", "why_tests_cant": "All integers.", "anchors": ["mpnum/mparray.py:regular_slices"]}
{"id": "C27", "title": "SVD compression: rank bound, overlap identity, canonical form", "statement": "compress(method='svd', rank=r) leaves every bond at most r, returns overlap = <u|c> = <c|c> where u is the tensor before and c the one after, never increases the norm, and the reported canonical form is true; the error is ||u||^2-||c||^2.", "quantifier": "all MPAs, ranks, directions, starting forms, every SVD routine meeting its contract", "why_tests_cant": "Nested truncations over any number of sites.", "anchors": ["mpnum/mparray.py:MPArray.compress", "mpnum/mparray.py:MPArray._compress_svd", "mpnum/mparray.py:MPArray._compress_svd_l", "mpnum/mparray.py:MPArray._compress_svd_r"]}
{"id": "C28", "title": "relerr rank selection", "statement": "With relerr=e the number of kept singular values at a bond is the smallest number whose sum is at least (1-e) of the total, capped by rank.", "quantifier": "all non-increasing singular value lists and all e in [0,1]", "why_tests_cant": "All real vectors.", "anchors": ["mpnum/mparray.py:MPArray._compress_svd_r", "mpnum/mparray.py:MPArray._compress_svd_l"]}
{"id": "C29", "title": "Variational compression overlap", "statement": "compress(method='var') returns an MPA c of at most the requested rank together with overlap = <u|c> = <c|c>. With one or two varied sites no sweep increases the error; on a chain of two sites with var_sites=2 the result is a best approximation of rank r, whatever the start vector.", "quantifier": "all MPAs, ranks, start vectors, num_sweeps >= 1, var_sites <= length", "why_tests_cant": "Environment vectors are updated incrementally along sweeps; correctness is a loop invariant.", "anchors": ["mpnum/mparray.py:MPArray._compression_var", "mpnum/mparray.py:MPArray._adapt_to", "mpnum/mparray.py:_adapt_to_add_l", "mpnum/mparray.py:_adapt_to_add_r", "mpnum/mparray.py:_adapt_to_new_lten"]}
{"id": "C30", "title": "pad_ranks and full_rank", "statement": "pad_ranks keeps the dense tensor and yields the requested ranks (at least the present ones); ranks never exceed the generic full rank unless forced.", "quantifier": "all MPAs, ranks", "why_tests_cant": "All shapes.", "anchors": ["mpnum/mparray.py:MPArray.pad_ranks", "mpnum/mparray.py:full_rank"]}
{"id": "C31", "title": "dump/load round trip", "statement": "MPArray.load(group) after dump(group) returns local tensors and canonical form equal to the original, for any number of sites. A dump into a group without those datasets that is interrupted after any number of its writes leaves a group whose load raises, never a group that loads as something else; a file dumped to again loads as its old value, raises, or loads as the new value.", "quantifier": "all MPAs, all groups and files, all crash points", "why_tests_cant": "Site keys are decimal strings; must be injective for any length. The interruption can come after any write.", "anchors": ["mpnum/mparray.py:MPArray.dump", "mpnum/mparray.py:MPArray.load"]}
{"id": "C32", "title": "Leg reordering global/local", "statement": "local_to_global and global_to_local are mutually inverse permutations of legs and move leg k of site n to position k*sites+n (global) / n*legs+k (local).", "quantifier": "all site and leg counts and skip arguments", "why_tests_cant": "All sizes.", "anchors": ["mpnum/utils/array_transforms.py:global_to_local", "mpnum/utils/array_transforms.py:local_to_global"]}
{"id": "C33", "title": "Conversions between MPS, PMPS and MPO", "statement": "pmps_to_mps(mps_to_pmps(x)) represents x; mps_to_mpo(psi) is |psi><psi|; pmps_to_mpo(p) is the partial trace over ancillas of |p><p|, hence Hermitian and positive semidefinite with trace norm(p)^2.", "quantifier": "all lengths, ranks, dimensions", "why_tests_cant": "All sizes.", "anchors": ["mpnum/mpsmpo.py:mps_to_pmps", "mpnum/mpsmpo.py:pmps_to_mps", "mpnum/mpsmpo.py:mps_to_mpo", "mpnum/mpsmpo.py:pmps_to_mpo", "mpnum/mpsmpo.py:pmps_dm_to_array"]}
{"id": "C34", "title": "reductions_mpo returns exact marginals in every request order", "statement": "Every item produced by reductions_mpo is the partial trace of the input over the sites outside the requested window, whatever windows were requested before (the internal cache never matters).", "quantifier": "all sequences of windows", "why_tests_cant": "Cache correctness over request histories.", "anchors": ["mpnum/mpsmpo.py:reductions_mpo"]}
{"id": "C35", "title": "reductions of purified states", "statement": "reductions_pmps / reductions_mps_as_pmps / pmps_reduction yield purifications whose density operator is the exact marginal of the input's, for any order of windows, although the input is re-canonicalised in place on the way.", "quantifier": "all sequences of windows", "why_tests_cant": "In-place canonicalisation between yields; correctness over histories.", "anchors": ["mpnum/mpsmpo.py:reductions_pmps", "mpnum/mpsmpo.py:pmps_reduction", "mpnum/mpsmpo.py:reductions_mps_as_pmps"]}
{"id": "C36", "title": "sandwich and effective local operators", "statement": "sandwich(H, a, b) = <b|H a>; the local operator used by eig is the compression of H onto the local tensor: x^H op x = <psi_x|H|psi_x>.", "quantifier": "all MPOs/MPSs, sites, var_sites", "why_tests_cant": "All sizes; incremental environments.", "anchors": ["mpnum/mparray.py:sandwich", "mpnum/linalg.py:_eig_leftvec_add", "mpnum/linalg.py:_eig_rightvec_add", "mpnum/linalg.py:_eig_local_op"]}
{"id": "C37", "title": "eig returns its own Rayleigh quotient", "statement": "With var_sites=1 and at least one sweep, the eigenvalue returned by eig is <v|H|v> for the returned unit vector v.", "quantifier": "all Hermitian MPOs, start vectors, numbers of sweeps, every eigensolver meeting its contract", "why_tests_cant": "Loop invariant over sweeps.", "anchors": ["mpnum/linalg.py:eig", "mpnum/linalg.py:_eig_minimize_locally"]}
{"id": "C38", "title": "eig_sum runs the same optimisation as eig on the summed operator", "statement": "Each local operator formed by eig_sum for a list of MPOs and MPSs equals the one eig would form for the sum of the MPOs and projectors.", "quantifier": "all lists of MPOs/MPSs", "why_tests_cant": "All sizes and lists.", "anchors": ["mpnum/linalg.py:eig_sum", "mpnum/linalg.py:_eig_sum_leftvec_add", "mpnum/linalg.py:_eig_local_op_mps"]}
{"id": "C39", "title": "special.inner_prod_mps and special.sumup agree with the general routines", "statement": "special.inner_prod_mps(a,b) equals inner(a,b) for product a; special.sumup with sufficient rank represents the weighted sum of product MPSs and its canonical form claim is true.", "quantifier": "all product MPSs, weights", "why_tests_cant": "All lengths and numbers of summands.", "anchors": ["mpnum/special.py:inner_prod_mps", "mpnum/special.py:sumup", "mpnum/special.py:_local_add_sparse"]}
{"id": "C40", "title": "Local POVMs are complete", "statement": "x_povm(d), y_povm(d), z_povm(d), pauli_povm(d) have positive elements that sum to the identity for every d >= 2, and concat keeps this for weights summing to one.", "quantifier": "all dimensions d", "why_tests_cant": "All dimensions.", "anchors": ["mpnum/povm/localpovm.py:x_povm", "mpnum/povm/localpovm.py:y_povm", "mpnum/povm/localpovm.py:z_povm", "mpnum/povm/localpovm.py:pauli_povm", "mpnum/povm/localpovm.py:concat"]}
{"id": "C41", "title": "pauli_povm is informationally complete", "statement": "For every d >= 2 two operators with the same pauli_povm(d) probabilities are equal.", "quantifier": "all dimensions d, all operators", "why_tests_cant": "All dimensions.", "anchors": ["mpnum/povm/localpovm.py:pauli_povm", "mpnum/povm/localpovm.py:POVM.probability_map"]}
{"id": "C42", "title": "MP-POVM probabilities are Born probabilities", "statement": "pmf(state) has entry tr(M_y rho) at outcome y in all modes (mps, pmps, mpdo) and implementations ('pmps-ltr', 'pmps-symm'), which agree; for a valid state and POVM it is non-negative and sums to one.", "quantifier": "all MP-POVMs and states", "why_tests_cant": "All lengths, ranks and dimensions.", "anchors": ["mpnum/povm/mppovm.py:MPPovm.pmf", "mpnum/povm/mppovm.py:MPPovm.probability_map", "mpnum/povm/mppovm.py:MPPovm._pmf_as_array_pmps_ltr", "mpnum/povm/mppovm.py:MPPovm._pmf_as_array_pmps_symm"]}
{"id": "C43", "title": "embed, block and repeat measure the intended sites", "statement": "embed(nr_sites, startsite, dims) measures self on the given window and nothing elsewhere; block lists all windows; repeat tiles the POVM to the requested length.", "quantifier": "all lengths and offsets", "why_tests_cant": "All integers.", "anchors": ["mpnum/povm/mppovm.py:MPPovm.embed", "mpnum/povm/mppovm.py:MPPovm.block", "mpnum/povm/mppovm.py:MPPovm.repeat"]}
{"id": "C44", "title": "pack_samples and unpack_samples are inverse", "statement": "Packing then unpacking samples returns the same outcomes and vice versa; packed values are below the number of outcomes.", "quantifier": "all samples and outcome dimensions", "why_tests_cant": "All dimension lists.", "anchors": ["mpnum/povm/mppovm.py:MPPovm.pack_samples", "mpnum/povm/mppovm.py:MPPovm.unpack_samples"]}
{"id": "C45", "title": "est_pmf are the relative frequencies", "statement": "est_pmf(samples) at outcome y equals the fraction of samples equal to y; it is non-negative and sums to one. Packed and unpacked samples give the same result; samples out of range are rejected.", "quantifier": "all sample lists", "why_tests_cant": "All lists.", "anchors": ["mpnum/povm/mppovm.py:MPPovm.est_pmf"]}
{"id": "C46", "title": "Sampling draws from the measurement distribution", "statement": "The conditional sampling method returns outcome y with probability exactly pmf(y), for every group size; samples are valid outcomes.", "quantifier": "all states, POVMs, group sizes, random streams", "why_tests_cant": "A statement about a probability distribution.", "anchors": ["mpnum/povm/mppovm.py:MPPovm._sample_cond", "mpnum/povm/mppovm.py:MPPovm._sample_cond_single", "mpnum/povm/mppovm.py:MPPovm.sample"]}
{"id": "C47", "title": "Linear functionals of probabilities and their estimators", "statement": "lfun returns sum_y c_y p_y and its variance (or the expectation values and the covariance matrix); est_lfun returns the corresponding (weighted) sample mean and variance estimate, both unbiased for independent samples; the MPPovmList variants return the sums over the list (MPPovmList.est_lfun ignores its weights).", "quantifier": "all coefficient functions, sample lists, weights", "why_tests_cant": "All inputs.", "anchors": ["mpnum/povm/mppovm.py:MPPovm.lfun", "mpnum/povm/mppovm.py:MPPovm.est_lfun", "mpnum/povm/mppovm.py:MPPovmList.est_lfun", "mpnum/povm/mppovm.py:MPPovmList.lfun_from"]}
{"id": "C48", "title": "project_pmf returns a probability vector or raises", "statement": "If project_pmf accepts, the result is non-negative, sums to one and differs from the input only by clipping entries below eps and renormalising.", "quantifier": "all real vectors", "why_tests_cant": "All vectors.", "anchors": ["mpnum/utils/pmf.py:project_pmf", "mpnum/utils/pmf.py:project_nonneg"]}
{"id": "C49", "title": "Random and special constructors", "statement": "eye is the identity, zero is zero, diagonal_mpa has the given entries on the diagonal with a true canonical form, random_mpo(hermitian=True) is Hermitian, random_mpdo is positive semidefinite with trace one, random_local_ham is Hermitian.", "quantifier": "all sizes and all outcomes of the random generator", "why_tests_cant": "Must hold for every random stream.", "anchors": ["mpnum/factory.py:eye", "mpnum/factory.py:zero", "mpnum/factory.py:diagonal_mpa", "mpnum/factory.py:random_mpo", "mpnum/factory.py:random_mpdo", "mpnum/factory.py:random_local_ham"]}
{"id": "C50", "title": "Cyclic Hamiltonian MPO", "statement": "mpo_cH(terms) represents the sum of nearest neighbour terms on the ring, the same operator as sparse_cH(terms), for every number of sites >= 2. The one-site MPOs mpo_X, mpo_Y, mpo_Z represent the Pauli matrices, and cXY_local_terms gives the documented XY Hamiltonian.", "quantifier": "all numbers of sites and local terms", "why_tests_cant": "All lengths.", "anchors": ["mpnum/utils/physics.py:mpo_cH", "mpnum/utils/physics.py:sparse_cH", "mpnum/utils/physics.py:mpo_X", "mpnum/utils/physics.py:mpo_Z", "mpnum/utils/physics.py:cXY_local_terms"]}
{"id": "C51", "title": "Operations do not modify their operands", "statement": "Every operation documented to return a new MPA leaves its operands unchanged, also when the result is later modified in place; compression() in particular works on a copy.", "quantifier": "all programs of API calls over any number of MPA variables", "why_tests_cant": "Aliasing over histories.", "anchors": ["mpnum/mparray.py:MPArray.copy", "mpnum/mparray.py:MPArray.compression", "mpnum/mpstruct.py:LocalTensors.copy", "mpnum/mparray.py:MPArray.group_sites", "mpnum/mparray.py:MPArray.__pos__"]}
{"id": "C52", "title": "singularvals yields Schmidt coefficients of every cut", "statement": "The k-th array from singularvals() consists of the singular values of the dense tensor matricised at bond k, and the MPA still represents the same tensor if the consumer stops early.", "quantifier": "all MPAs, all stopping points of the generator", "why_tests_cant": "Every interruption point of a generator with side effects.", "anchors": ["mpnum/mparray.py:MPArray.singularvals"]}
{"id": "C53", "title": "Named arrays", "statement": "named_ndarray.tensordot contracts exactly the named legs and renaming is simultaneous (names may be swapped).", "quantifier": "all named arrays and rename maps", "why_tests_cant": "All name maps.", "anchors": ["mpnum/_named_ndarray.py:named_ndarray"]}
{"id": "C54", "title": "Programs compute what they would compute on dense tensors", "statement": "A program of API calls over any number of variables (constructors, arithmetic, contractions, reshapings, site operations, in-place canonicalization and compression) whose arguments fit the shapes never raises, and at every point to_array() of every variable equals the array the same program computes on dense tensors (for compressions: an array orthogonally projected from it), and every canonical form reported is true.", "quantifier": "all programs of any length over any number of variables, all inputs", "why_tests_cant": "Quantifies over all sequences of calls; each result is the operand of later calls in a form that depends on the whole history.", "anchors": ["mpnum/mparray.py:MPArray", "mpnum/mparray.py:MPArray.to_array", "mpnum/mparray.py:MPArray.canonicalize", "mpnum/mparray.py:MPArray.compress", "mpnum/mparray.py:dot", "mpnum/mparray.py:local_sum", "mpnum/mpsmpo.py:pmps_to_mpo"]}
{"id": "C55", "title": "SVD compression is quasi-optimal", "statement": "compress(method='svd', rank=r) is within the factor sqrt(len - 1) of the best approximation: for every MPA z of the same shape with bonds at most r, ||x - y||^2 <= (len - 1) ||x - z||^2, where y is the result; for two sites y is a best approximation. The squared error is at most the sum over the bonds of the squares of the singular values of the original tensor after the first r ones, and at least this number for every single bond. With relerr=e alone the squared error is at most e^2 times the sum of the bond dimensions times the squared norm.", "quantifier": "all MPAs of at least two sites, all ranks, directions and starting canonical forms, all competing MPAs, all QR and SVD routines meeting their contracts", "why_tests_cant": "The claim compares the result with every MPA of the given bonds.", "anchors": ["mpnum/mparray.py:MPArray.compress", "mpnum/mparray.py:MPArray._compress_svd_l", "mpnum/mparray.py:MPArray._compress_svd_r"]}
{"id": "C56", "title": "match_elems finds exactly the proportional POVM elements", "statement": "For two MP-POVMs on the same sites with non-zero elements, match_elems compares each element of self with each element of other (outcomes of other being discarded where self has a single outcome), reports a pair exactly if the normalised squared overlap differs from 1 by at most eps, and returns the square root of the quotient of the squared norms as prefactor. Proportional elements are always reported with the right prefactor; with eps=0 and positive elements exactly these are; a reported pair has probabilities that agree up to the prefactor and an error bounded by eps for every state. Unknown values of exclude_dup, different dimensions and zero elements are rejected.", "quantifier": "all MP-POVMs of any length, outcome numbers, dimensions and ranks; all tolerances; all pairs of outcomes; all states", "why_tests_cant": "Whether a pair is reported depends on all elements of both POVMs; the error bound ranges over all states.", "anchors": ["mpnum/povm/mppovm.py:MPPovm.match_elems"]}
{"id": "C57", "title": "Estimates of probabilities from samples of another POVM", "statement": "est_pmf_from(other, samples, eps) estimates the probability of each outcome of self by the average, over the samples, of the factors between the element of self and the matching element of other; outcomes without a matching element get nan; it returns nan everywhere if nothing matches, and raises AssertionError exactly if the elements with a match do not sum to a multiple of the identity (at most 1, or 1 if nothing is missing) or if the estimates do not sum to that multiple. For independent samples the expectation value of the estimate is the sum over the matching elements of factor times probability; if matching elements are proportional and no samples are rejected it is the probability up to eps. est_pmf_from_mpps returns the average of the estimates from all POVMs weighted with the numbers of samples used, and nan where no sample was used.", "quantifier": "all MP-POVMs of any length, outcome numbers, dimensions and ranks; all numbers of samples and arrays of samples; all tolerances; all states", "why_tests_cant": "Unbiasedness is a statement about the average over all sample arrays and all states; acceptance depends on all elements and all samples.", "anchors": ["mpnum/povm/mppovm.py:MPPovm.est_pmf_from", "mpnum/povm/mppovm.py:MPPovm.est_pmf_from_mpps", "mpnum/povm/mppovm.py:MPPovm._elemsum_identity", "mpnum/povm/mppovm.py:MPPovm._fill_outcome_mpa_holes"]}
{"id": "C58", "title": "Linear functions of probabilities from other POVMs", "statement": "lfun_from(other, coeff, state, other_weights) and est_lfun_from(other, coeff, samples) return (nan, nan) exactly if a probability with a nonzero coefficient has no matching element in any POVM of other. Otherwise, for whole-number weights, lfun_from returns the expectation value and the summed single-shot variances of the weighted-average estimator, and the expectation value is the wanted linear function of the probabilities of self (exactly if matching elements are proportional, up to the comparison tolerance otherwise). est_lfun_from returns the sum of the sample means; for independent samples it is unbiased, and the returned variance is an unbiased estimate of its mean square error, which is the sum of the variances divided by the numbers of samples.", "quantifier": "all lists of MP-POVMs of any length, outcome numbers, dimensions and ranks; all coefficients; all positive whole weights; all states; all numbers of samples (at least two per POVM) and all sample arrays", "why_tests_cant": "Unbiasedness and the mean square error are averages over all sample arrays; a test compares a few random runs with a statistical tolerance.", "anchors": ["mpnum/povm/mppovm.py:MPPovmList.lfun_from", "mpnum/povm/mppovm.py:MPPovmList.est_lfun_from", "mpnum/povm/mppovm.py:MPPovmList._lfun_estimator", "mpnum/povm/mppovm.py:MPPovm._mppl_lfun_estimator"]}
{"id": "C59", "title": "The constructors of MP-POVMs return POVMs", "statement": "If all parts are POVMs (positive semidefinite elements that sum to the identity), then so is the MP-POVM returned by MPPovm.from_local_povm, MPPovm.eye, embed, block, repeat (to a multiple of the length; C43 describes the other lengths) and chain, on the full tensor product space. pauli_mpp(n, d) and pauli_mpps(n, d) return POVMs; the outcomes are normalised Pauli-type projectors, pauli_mpps returns one MP-POVM for every choice of X, Y or Z (X or Y if d > 2) per site in lexicographic order, and the elements of each are tensor products of the local ones.", "quantifier": "all local POVMs, all numbers of sites, all local dimensions, all lists of parts, all outcome and matrix indices", "why_tests_cant": "Positivity and completeness must hold for every number of sites and every local POVM; tests check a handful of small dimensions up to rounding.", "anchors": ["mpnum/povm/mppovm.py:MPPovm.from_local_povm", "mpnum/povm/mppovm.py:MPPovm.eye", "mpnum/povm/mppovm.py:MPPovm.embed", "mpnum/povm/mppovm.py:MPPovm.block", "mpnum/povm/mppovm.py:MPPovm.repeat", "mpnum/povm/mppovm.py:pauli_mpp", "mpnum/povm/mppovm.py:pauli_mpps", "mpnum/povm/localpovm.py:pauli_povm", "mpnum/povm/localpovm.py:pauli_parts"]}
{"id": "C60", "title": "Probabilities and samples for several states, windows and MP-POVMs", "statement": "pmfs_as_array returns the Born-rule probabilities of every state. block_pmfs_as_array returns, for every window in the given order (all windows as wide as the MP-POVM by default), the probabilities of the MP-POVM on the reduced state of the window, which are the probabilities of the MP-POVMs returned by block on the full state. The methods pmf, pmf_as_array, pmfs_as_array, block_pmfs_as_array and est_pmf_from of an MPPovmList return the results for its MP-POVMs in order, whatever happened to the canonical form of the state during the earlier ones. sample of an MPPovmList draws independent samples of all MP-POVMs. All arrays are normalised probability distributions. Empty lists and wrong lengths are rejected, except that pmfs_as_array of a list ignores items without a partner.", "quantifier": "all MP-POVMs (any list length, sites, outcome numbers, dimensions, ranks), all states as MPO, PMPS or MPS with any claimed canonical form, all windows, all samples", "why_tests_cant": "The joint distribution of samples is a statement about all outcomes, and the state is carried through a list of any length; tests compare a few small random states within a tolerance.", "anchors": ["mpnum/povm/mppovm.py:MPPovm.pmfs_as_array", "mpnum/povm/mppovm.py:MPPovm.block_pmfs_as_array", "mpnum/povm/mppovm.py:MPPovmList.pmf", "mpnum/povm/mppovm.py:MPPovmList.pmf_as_array", "mpnum/povm/mppovm.py:MPPovmList.pmfs_as_array", "mpnum/povm/mppovm.py:MPPovmList.block_pmfs_as_array", "mpnum/povm/mppovm.py:MPPovmList.sample", "mpnum/povm/mppovm.py:MPPovmList.est_pmf_from"]}
{"id": "C61", "title": "Randomized SVD", "statement": "randomized_svd(M, k, ...) returns min(k, m, n) descending non-negative numbers and orthonormal columns and rows, whatever the random numbers, the power iterations and their normaliser are. The squared error of the product is the squared norm of M minus the squares of the returned numbers, which never exceed the singular values of M, so the result is never better than truncated_svd. If the random draw captures the range of M, the numbers are the k largest singular values and the product is a best approximation of rank k. For independent draws from a distribution without atoms this happens with probability one if the rank of M is at most n_components + n_oversamples. Other dtypes than double precision are rejected.", "quantifier": "all matrices, all numbers of components and oversamples, all numbers and normalisers of power iterations, all values of transpose, all random draws, all QR, LU and SVD routines meeting their contracts", "why_tests_cant": "The statement is about every draw and about probability one; the tests draw a few matrices and compare within a tolerance.", "anchors": ["mpnum/utils/extmath.py:randomized_svd", "mpnum/utils/extmath.py:approx_range_finder", "mpnum/utils/extmath.py:truncated_svd"]}
{"id": "C62", "title": "Dense partial trace and Kronecker products", "statement": "partial_trace of a dense array in global form (row indices of all sites, then column indices) over an ascending list of sites returns the array of the other sites, whose entries are the sums over all common values of the row and column indices of the sites traced out; arrays with an odd number of legs are rejected. mkron of one or more arrays returns the array with the products of the sizes of the factors whose entries are the products of the entries of the factors at the mixed-radix digits of the index.", "quantifier": "all arrays, any number of sites and dimensions, every ascending list of sites, any number of factors with any number of axes", "why_tests_cant": "The functions recurse over lists of any length and the statement is about all entries; tests compare a few shapes.", "anchors": ["mpnum/utils/extmath.py:partial_trace", "mpnum/utils/extmath.py:mkron"]}
{"id": "C63", "title": "cXY_E0 is the ground state energy of the cyclic XY model", "statement": "For -1 <= gamma <= 1, cXY_E0(N, gamma) is the smallest eigenvalue of mpo_cH(cXY_local_terms(N, gamma)) and of sparse_cH(cXY_local_terms(N, gamma)), for every number of sites it accepts; it accepts exactly the odd multiples of two and raises ValueError otherwise. For |gamma| > 1 the smallest eigenvalue is |gamma| cXY_E0(N, 1/gamma) and cXY_E0(N, gamma) is too large. The energy returned by eig for this operator is never below cXY_E0(N, gamma).", "quantifier": "all numbers of sites, all real gamma, all start vectors, numbers of sites varied at once and sweeps of eig, all QR, SVD and eigenvalue routines meeting their contracts", "why_tests_cant": "The matrix has 2^N rows; the claim is about every N.", "anchors": ["mpnum/utils/physics.py:cXY_E0", "mpnum/utils/physics.py:cXY_local_terms", "mpnum/utils/physics.py:mpo_cH", "mpnum/utils/physics.py:sparse_cH", "mpnum/linalg.py:eig"]}
{"id": "C64", "title": "SVD compression is determined by the tensor", "statement": "If no truncation separates equal singular values, the tensor returned by compress('svd', rank, relerr, direction) is determined by the tensor it is applied to: it is obtained by truncating the bipartitions one after the other in the order of the direction, it does not depend on which QR and singular value decompositions the linear algebra library returns nor on the matrix product form of the operand, and the overlap returned is its squared norm. For matrix product states and a fixed rank it is entry by entry the result of the dense reference implementation compression_svd.", "quantifier": "all tensors, shapes, ranks, relative errors, directions, matrix product forms, all QR and SVD routines meeting their contracts", "why_tests_cant": "LAPACK is one choice of decompositions; singular vectors are not unique.", "anchors": ["mpnum/mparray.py:MPArray.compress", "mpnum/_testing.py:compression_svd"]}
{"id": "C65", "title": "The test helpers decide what they document", "statement": "assert_correct_normalization raises AssertionError exactly if a site claimed to be canonical is not (up to the tolerance of assert_array_almost_equal) or the claim differs from the given one, and never for a well-formed MPArray; assert_mpa_identical passes exactly if number of sites, canonical form and local tensors agree, and then the tensors are equal; assert_mpa_almost_equal compares the dense arrays and raises NotImplementedError unless full=True; random_lowrank returns a matrix of norm one that is a product of matrices with rank columns and rows, and rejects other dtypes.", "quantifier": "all MPArrays, targets, numbers of decimals, random numbers", "why_tests_cant": "The helpers are what the tests rely on; a helper that accepts too much hides every error.", "anchors": ["mpnum/_testing.py:assert_correct_normalization", "mpnum/_testing.py:assert_mpa_identical", "mpnum/_testing.py:assert_mpa_almost_equal", "mpnum/_testing.py:random_lowrank", "mpnum/_testing.py:random_fullrank"]}
{"id": "C66", "title": "Lossless compression reaches the smallest possible bonds", "statement": "compress(method='svd', relerr=0) does not change the tensor, and every bond of the result is the rank of the tensor across the cut (at least one), so no matrix product array of the same tensor has a smaller bond anywhere. compress(rank=r) does not change the tensor if no bipartition has a rank above r, whatever the bonds of the operand are.", "quantifier": "all tensors, shapes, matrix product forms, ranks, directions, all QR and SVD routines meeting their contracts", "why_tests_cant": "Minimality is a claim about every other representation of the tensor, and tests use a few random tensors of generic rank.", "anchors": ["mpnum/mparray.py:MPArray.compress", "mpnum/mparray.py:MPArray._compress_svd", "mpnum/mparray.py:MPArray._compress_svd_l", "mpnum/mparray.py:MPArray._compress_svd_r"]}
{"id": "C67", "title": "Product measurements determine the state", "statement": "pauli_mpp(n, d), and pauli_mpps(n, d) as a list, are informationally complete: two states of the chain, however represented (MPDO, PMPS, MPS), have the same pmf_as_array exactly if they are the same density matrix. from_local_povm(x, n) is informationally complete exactly if x is, chain of informationally complete MP-POVMs is, and block_pmfs_as_array of an informationally complete MP-POVM agrees for two states exactly if their reductions to all windows agree.", "quantifier": "all numbers of sites, local dimensions, POVMs and pairs of states", "why_tests_cant": "The tests compute the rank of the probability map for one site and a few dimensions; the claim is about all pairs of states on chains of any length.", "anchors": ["mpnum/povm/mppovm.py:pauli_mpp", "mpnum/povm/mppovm.py:pauli_mpps", "mpnum/povm/mppovm.py:MPPovm.from_local_povm", "mpnum/povm/mppovm.py:MPPovm.pmf_as_array", "mpnum/povm/mppovm.py:MPPovm.block_pmfs_as_array", "mpnum/povm/localpovm.py:pauli_povm"]}
{"id": "C68", "title": "Estimates from samples converge to the Born probabilities", "statement": "Drawing n samples with sample() (either method, packed or not) and passing them to est_pmf gives, for every outcome with probability p, an estimate which is wrong by delta or more (or fails with an exception) with probability at most p(1-p)/(n delta^2); the whole distribution is within Euclidean distance delta of pmf_as_array except with probability 1/(n delta^2); est_lfun is within delta of the expectation value except with probability Var(f)/(n delta^2). The estimates are consistent as n grows.", "quantifier": "all MP-POVMs, states in any representation, numbers of samples, functions, coefficients and tolerances", "why_tests_cant": "Tests draw samples with one seed and compare with loose tolerances; a statement about probabilities cannot be settled by finitely many runs.", "anchors": ["mpnum/povm/mppovm.py:MPPovm.sample", "mpnum/povm/mppovm.py:MPPovm.est_pmf", "mpnum/povm/mppovm.py:MPPovm.est_lfun", "mpnum/povm/mppovm.py:MPPovm.pmf_as_array"]}
{"id": "C69", "title": "Global form: to_array_global and from_array_global", "statement": "For an MPA with p legs on each of its N sites, to_array_global() has leg k of site n as axis k*N+n and the entries of the matrix product. from_array_global(A, p) turns an array in this form into a valid canonical MPA with these legs and entries, and the two are inverse in both directions. ndims=None gives one site. has_virtual, ndims=0, arrays without axes and a number of axes which is not a multiple of ndims are rejected. (Finding: sites with different numbers of legs whose total is divisible by N are silently mixed up.)", "quantifier": "all MPAs with equally many legs per site, all arrays with positive dimensions, all numbers of sites and legs and all dimensions", "why_tests_cant": "Tests use a few small equal dimensions, for which a wrong axis permutation can go unnoticed; the statement is about every number of sites, legs and dimensions.", "anchors": ["mpnum/mparray.py:MPArray.to_array_global", "mpnum/mparray.py:MPArray.from_array_global", "mpnum/utils/array_transforms.py:global_to_local", "mpnum/utils/array_transforms.py:local_to_global"]}
{"id": "C70", "title": "In-place methods that are interrupted", "statement": "If a numerical routine (QR, SVD, matrix product) raises an exception at any step of canonicalize, norm or compress('svd'), whatever their arguments, the object stays a valid MPA of the same shape whose canonical form is true and whose bonds have not grown. For canonicalize and norm it represents the same tensor; for compress it is an orthogonal projection c of the original u, so <u|c> = <c|c> and the squared error is |u|^2 - |c|^2. If the call returns, result and object are those of the uninterrupted call. A rejected canonicalize does not touch the object, and calling canonicalize again reaches the requested form. compress('var') and *= leave the object unchanged unless they finish. (Finding: an asynchronous exception between the two assignments of one update leaves bonds that do not fit, or a valid MPA of another tensor.)", "quantifier": "all MPAs with a true canonical form, all arguments, all schedules of exceptions, all routines that meet the QR/SVD contracts", "why_tests_cant": "The exception can come at any step of a loop over any number of sites; tests do not inject failures into the numerical routines at every point.", "anchors": ["mpnum/mparray.py:MPArray.canonicalize", "mpnum/mparray.py:MPArray._rcanonicalize", "mpnum/mparray.py:MPArray._lcanonicalize", "mpnum/mparray.py:MPArray.compress", "mpnum/mparray.py:MPArray._compress_svd_l", "mpnum/mparray.py:MPArray._compress_svd_r", "mpnum/mparray.py:MPArray.__imul__", "mpnum/mparray.py:norm", "mpnum/mpstruct.py:LocalTensors.update"]}
{"id": "C71", "title": "inner, norm and normdist form a Hilbert space", "statement": "For MPAs of equal shape: inner(y, x) is the conjugate of inner(x, y); inner is linear in its second and conjugate linear in its first argument; norm is not negative and zero only for the zero tensor; |inner(x, y)| <= norm(x) norm(y); norm(x + y) <= norm(x) + norm(y); norm(c x) = |c| norm(x); normdist is a metric on the represented tensors (symmetric, zero exactly for equal tensors, triangle inequality) and normdist(x, y)^2 = norm(x)^2 + norm(y)^2 - 2 Re inner(x, y).", "quantifier": "all MPAs with a true canonical form and positive leg sizes, all scalars, all QR routines that meet their contract", "why_tests_cant": "The laws relate results of different calls on arbitrary triples of MPAs with different ranks and canonical forms.", "anchors": ["mpnum/mparray.py:inner", "mpnum/mparray.py:norm", "mpnum/mparray.py:normdist", "mpnum/mparray.py:MPArray.__add__", "mpnum/mparray.py:MPArray.__mul__"]}
{"id": "C72", "title": "Operators form an algebra with adjoint and trace", "statement": "For matrix product operators and the default axes of dot: dot is associative (also on vectors) and distributes over +; dot(x, y).adj() represents dot(y.adj(), x.adj()) and x.adj().adj() represents x; trace(dot(x, y)) = trace(dot(y, x)); trace(x.adj()) is the conjugate of trace(x); trace(dot(x.adj(), y)) = inner(x, y); inner(v, dot(x, w)) = inner(dot(x.adj(), v), w); the expectation value of dot(x.adj(), x) in v is inner(dot(x, v), dot(x, v)), real and not negative.", "quantifier": "all operators and vectors whose dimensions fit, site by site, with positive ranks", "why_tests_cant": "The laws relate results of different chains of calls with different ranks, for any number of sites and any dimensions.", "anchors": ["mpnum/mparray.py:dot", "mpnum/mparray.py:MPArray.adj", "mpnum/mparray.py:trace", "mpnum/mparray.py:inner", "mpnum/mparray.py:MPArray.__add__"]}
{"id": "C73", "title": "Comparable element types can be mixed without loss", "statement": "MPAs of different element types (integers, reals and complex numbers in single and double precision) can be mixed if any two of the types can be compared by numpy's safe casting: to_array gives exact entries in the smallest type that holds all local tensors, and dtype names this type (float64 instead of integers); the entries of x + y, x - y, sumup(...), c * x and local_sum(...) are those of the corresponding operation on numbers, and the element type of x + y is that of the sum of the two dense arrays. local_sum may raise TypeError unless all terms are of the same kind, but never changes values. Without comparable types none of this holds: C73_add_lossy, C73_local_sum_order and C73_local_sum_int are counterexamples.", "quantifier": "all MPAs, all lists of summands and weights, all assignments of element types to the local tensors", "why_tests_cant": "The result type is chosen site by site by a comparison that is not a total order; whether values get lost depends on the order and combination of the types on inner sites.", "anchors": ["mpnum/mparray.py:_local_add", "mpnum/mparray.py:MPArray.__add__", "mpnum/mparray.py:sumup", "mpnum/mparray.py:local_sum", "mpnum/mparray.py:MPArray.dtype", "mpnum/mparray.py:MPArray.to_array", "mpnum/utils/extmath.py:block_diag"]}
{"id": "C74", "title": "Reduced states are states, agree with each other and give local expectation values", "statement": "The reductions of a Hermitian positive semidefinite MPO are Hermitian, positive semidefinite and have its trace; the reductions of a normalized PMPS are normalized and represent density operators. Reducing a reduced state further gives the same as reducing the full state at once. The expectation value of a local operator embedded into the chain by embed_slice is its expectation value in the reduced state, and the expectation value of local_sum(terms) is the sum of the expectation values of the terms in the reductions that reductions_mpo yields for the sites of the terms.", "quantifier": "all MPOs and PMPSs of any length, local dimensions and ranks, all lists of windows in any order, all local terms of any widths and positions", "why_tests_cant": "The reductions use cached partial contractions filled in the order of the windows; agreement between overlapping windows and positivity are statements about all states and all vectors.", "anchors": ["mpnum/mpsmpo.py:reductions_mpo", "mpnum/mpsmpo.py:reductions_pmps", "mpnum/mpsmpo.py:pmps_to_mpo", "mpnum/mparray.py:local_sum", "mpnum/mparray.py:embed_slice", "mpnum/mparray.py:trace", "mpnum/mparray.py:dot"]}
{"id": "C75", "title": "canonicalize and norm are stable in inexact arithmetic", "statement": "If the QR decomposition, the product of arrays and the 2-norm that numpy computes have a relative error of at most eps each (backward stable QR, usual error model of a matrix product), then canonicalize raises or reaches the same canonical form as in exact arithmetic; every site it claims to be canonical has singular values between 1-eps and 1+eps, however long the chain and whatever was called before; shape and ranks behave as in exact arithmetic. The tensor changes by at most (n-1) eps (1+(1+eps)^2 s) ((1+eps)^2 (1+eps s))^(n-1) times a reference size: s = 1 and the product of the norms of the local tensors for an MPA as constructed; s = sqrt(largest rank) and the norm of the tensor, up to ((1+eps)/(1-eps))^(n-1), for an MPA with one site that is not canonical. norm returns the norm of the tensor up to this error and one factor 1 +- eps per site. A sequence of k calls changes the tensor by a relative error of at most (1+eta)^k - 1, where eta is the bound of one call. With eps = 0 nothing changes.", "quantifier": "all MPAs of any length, shapes and ranks in any canonical form, all arguments and sequences of calls, all error sizes below 1, all numerical routines with these error bounds", "why_tests_cant": "A test sees the rounding errors of one machine for a few chains; the bound is about every routine with small errors and about errors accumulating over chains and sequences of calls of any length.", "anchors": ["mpnum/mparray.py:MPArray.canonicalize", "mpnum/mparray.py:MPArray._rcanonicalize", "mpnum/mparray.py:MPArray._lcanonicalize", "mpnum/mparray.py:norm", "mpnum/utils/array_transforms.py", "mpnum/utils/extmath.py:matdot"]}
{"id": "C76", "title": "Lazy iterators and interleaved calls on the same object", "statement": "reductions_pmps, reductions_mps_as_pmps, reductions_mpo and singularvals return iterators whose items are computed when the consumer asks for them. Any number of reductions_pmps iterators over one object may be advanced in any order, with calls of canonicalize (accepted or rejected), norm and compress on the object in between: every item is the reduction of the state the object represents at the time of the call, items come in the order of the windows and StopIteration after the last; without compress calls it is the reduction of the state the object represented at the beginning. reductions_mps_as_pmps delivers the reductions of the state at the time the iterator was made, whatever is done with the object later, and never changes the object. Any number of reductions_mpo iterators may be advanced in any order, and calls which find their canonical form already reached are harmless. singularvals delivers the singular values bond by bond and leaves the tensor unchanged, wherever it is abandoned. Not safe, and shown by concrete schedules: advancing two singularvals iterators in turn, calling norm between two items of singularvals (both change the tensor), calling norm between two items of reductions_mpo (a wrong item).", "quantifier": "all objects of any length, shapes, ranks and canonical form, all numbers of iterators, all windows, all finite schedules of next and in-place calls with any arguments", "why_tests_cant": "The items depend on the order of the calls of several iterators and methods; the schedules are unbounded in number and length.", "anchors": ["mpnum/mpsmpo.py:reductions_pmps", "mpnum/mpsmpo.py:reductions_mps_as_pmps", "mpnum/mpsmpo.py:reductions_mpo", "mpnum/mparray.py:MPArray.singularvals", "mpnum/mparray.py:MPArray._compress_svd_r", "mpnum/mparray.py:MPArray.canonicalize", "mpnum/mparray.py:norm"]}
{"id": "C77", "title": "SVD compression in floating point arithmetic", "statement": "If the QR and singular value decompositions, the products, the norm and the sum of squares are computed with relative errors of at most eps, then compress(method='svd') of an MPA succeeds for every admissible rank, relerr and direction, keeps the shape, makes no bond larger, respects the argument rank, leaves an MPA with one site that is not canonical (the others canonical up to eps), and the returned number is the square of the norm of the result up to 2(n-1)+1 factors 1 +- eps. The distance of the result from the original is at most sqrt(n-1) times the distance of any other MPA with these ranks (with relerr=None: any MPA with the prescribed ranks, so also the best one), plus a rounding error that is at most 180 sqrt(D) (n-1)^(3/2) eps times the norm of the tensor, if the MPA had one site that was not canonical, D is the largest rank and eps is small; for an MPA without canonical form it is relative to the product of the norms of the local tensors. A compression that need not truncate changes the tensor by this rounding error only. With exact arithmetic the rounding error is zero.", "quantifier": "all MPAs of any length, shapes and ranks, exactly or nearly in their canonical form, all precisions eps < 1, all routines that meet the error contract, all rank, relerr and direction, canonicalize=True or an MPA already in the form the sweep starts from, all competitors", "why_tests_cant": "Rounding errors depend on the input and on the linear algebra library; the bound is over all inputs and all routines meeting the contract, and against all competitors.", "anchors": ["mpnum/mparray.py:MPArray.compress", "mpnum/mparray.py:MPArray._compress_svd", "mpnum/mparray.py:MPArray._compress_svd_l", "mpnum/mparray.py:MPArray._compress_svd_r", "mpnum/utils/extmath.py:truncated_svd", "mpnum/mparray.py:norm"]}
{"id": "C78", "title": "to_array, dot and inner in floating point arithmetic", "statement": "If every numpy.tensordot is computed with a relative error of at most eps (the error in Frobenius norm is at most eps times the product of the norms of the arguments; a componentwise error bound implies this), then to_array, dot and inner succeed on the same arguments as in exact arithmetic, with results of the same shape. For any MPAs the error of to_array is at most ((1+eps)^(n-1)-1) times the product of the norms of the local tensors, the tensor represented by the result of dot differs by at most ((1+eps)^n-1) times the product of the norms of all local tensors, and inner by at most ((1+eps)^(2n-1)-1) times this product. If the MPAs have one site that is not canonical (the others canonical up to eta), the errors of to_array and inner are relative to the norms of the represented tensors: at most 2 D^(3/2) n eps and 6 (D D')^(3/2) n eps to first order, where D, D' are the largest ranks. The bounds are zero in exact arithmetic.", "quantifier": "all MPAs of any length, shapes and ranks, all contracted axes, all precisions eps, all contraction routines that meet the error contract, in canonical form or not", "why_tests_cant": "A test compares against a tolerance for a few sizes; the bound ranges over all lengths, ranks and all admissible rounding errors.", "anchors": ["mpnum/mparray.py:MPArray.to_array", "mpnum/mparray.py:dot", "mpnum/mparray.py:inner", "mpnum/mparray.py:_local_dot", "mpnum/mparray.py:_ltens_to_array", "mpnum/utils/extmath.py:matdot"]}
{"id": "C79", "title": "Sums, differences and normdist in floating point arithmetic", "statement": "If numpy.add, the QR decomposition, matrix products and numpy.linalg.norm are computed with relative errors of at most eps (contracts as in C75), then for MPAs of the same shape x + y, x - y and normdist(x, y) succeed, x + y does not round at all unless there is one site only, and canonicalize() of x + y represents x + y up to an absolute error err. normdist(x, y) returns a number v with (1-eps)^(n-1) v <= (1+eps) (||x-y|| + err) and (1-eps) (||x-y|| - err) <= (1+eps)^(n-1) v. For any x and y, err is at most f(n, eps) times the product over the sites of the larger of the two local norms. If both have one site that is not canonical (the others canonical up to eta) and ranks of at most D, err is at most f(n, eps, D) ((1+eta)/(1-eta))^(2(n-1)) times max(||x||, ||y||) if the centres agree, and max(1, ||x||) max(1, ||y||) otherwise. f is zero for eps = 0 and at most linear in n eps (constants depending on D only) while n eps is small. With one site, the error of normdist is relative to the distance itself.", "quantifier": "all pairs of MPAs of the same shape, of any length, ranks and canonical form, all precisions eps < 1, all routines that meet the error contracts", "why_tests_cant": "Cancellation makes the result of normdist pure rounding error for close arguments, so tests can only use ad-hoc tolerances; the bound ranges over all lengths, ranks and admissible rounding errors.", "anchors": ["mpnum/mparray.py:MPArray.__add__", "mpnum/mparray.py:MPArray.__sub__", "mpnum/mparray.py:MPArray.__mul__", "mpnum/mparray.py:MPArray.canonicalize", "mpnum/mparray.py:norm", "mpnum/mparray.py:normdist"]}
{"id": "C80", "title": "Memory used by an MPA", "statement": "size is the sum over the sites of (left rank) * (number of values of the local legs) * (right rank), with the outer ranks equal to 1; with ranks of at most D and local dimension at most d it is at most n d D^2. canonicalize and compress never increase it; compress(rank=r) makes it at most n d r^2; compress(relerr=0) makes it the smallest possible for the array it represents. x + y and dot(x, y) need the storage that belongs to the sums and products of the ranks. In canonical form, a rank left (right) of the centre is at most the number of values of all legs to the left (right) of it.", "quantifier": "all MPAs of any length, shape and ranks, all compress arguments of method 'svd', all QR and SVD routines that meet their contracts", "why_tests_cant": "The memory of all representations of an array cannot be enumerated, so minimality and the bounds cannot be tested; they must hold for all shapes and ranks.", "anchors": ["mpnum/mparray.py:MPArray.size", "mpnum/mparray.py:MPArray.ranks", "mpnum/mparray.py:MPArray.canonicalize", "mpnum/mparray.py:MPArray.compress", "mpnum/mparray.py:MPArray.__add__", "mpnum/mparray.py:dot"]}
{"id": "C81", "title": "Compressing a sum in floating point arithmetic", "statement": "(x + y).compress(rank=..., relerr=..., direction=...) and (x - y).compress(...) succeed in floating point arithmetic for any two MPAs of the same shape. The result has the shape of x, is in canonical form up to rounding, obeys the rank bound, never has larger ranks than the sum, and compress returns its overlap up to rounding. Its distance from the exact x + y is at most sqrt(n-1) times that of any MPA with the same or admissible ranks, plus a rounding error of first order in the unit roundoff. For x and y in canonical form the rounding error is bounded relative to the norms of x and y, with factors polynomial in the number of sites and the rank, although the sum itself is not in canonical form and its local tensors can be much larger than the sum. If nothing has to be truncated, only the rounding error remains. With one site only the addition rounds.", "quantifier": "all pairs of MPAs of equal shape of any length and ranks, all compress arguments of method 'svd', all numerical routines (QR, SVD, products, sums, norms) that meet their contracts with relative error eps < 1", "why_tests_cant": "The bound has to hold for all inputs and for every way the routines may round; a test sees one set of rounding errors of one library.", "anchors": ["mpnum/mparray.py:MPArray.__add__", "mpnum/mparray.py:MPArray.__sub__", "mpnum/mparray.py:MPArray.compress", "mpnum/mparray.py:MPArray.canonicalize"]}
{"id": "C82", "title": "from_array in floating point arithmetic", "statement": "MPArray.from_array(A, ndims) succeeds in floating point arithmetic for every array A with at least one element and every admissible grouping of its legs. The result has the requested shape and exactly the full ranks, reports all but the last site as left-canonical, and these sites are so up to rounding. It represents A with a relative error (2-norm) of at most eps * sum_j (1 + eps)^(2j), about (n - 1) eps for n sites, independent of ranks and dimensions; with one site it is exact. Consequently from_array(A).to_array() returns A up to a relative error of first order, and from_array(A).compress(...) is, up to rounding, within a factor sqrt(n - 1) as close to A as any MPA with the same or admissible ranks.", "quantifier": "all arrays and admissible leg groupings (any number of sites, legs and dimensions), all QR decompositions with relative error eps, for the consequences all numerical routines that meet their contracts with eps < 1", "why_tests_cant": "The bound has to hold for all arrays and for every way the decomposition may round; a test sees one set of rounding errors of one library.", "anchors": ["mpnum/mparray.py:MPArray.from_array", "mpnum/mparray.py:_extract_factors", "mpnum/mparray.py:MPArray.to_array", "mpnum/mparray.py:MPArray.compress"]}
{"id": "C83", "title": "Probabilities of MP-POVMs in floating point arithmetic", "statement": "MPPovm.pmf_as_array(state, mode, eps, impl) with the implementations 'pmps-ltr' and 'pmps-symm' (the ones chosen by default for PMPSs and, with mode='mps', for pure states) succeeds in floating point arithmetic up to the final projection, and the computed numbers differ from the Born probabilities tr(M_Y rho) by at most ((1 + u)^(3n+1) - 1) times the product of the norms of the local tensors of the POVM and of the squared norms of the local tensors of the state (2-norm over all outcomes; u is the relative error of one tensor contraction, n the number of sites). If this error, times the square root of the number of outcomes, is at most eps < 1, then a normalised state is never rejected, the returned array is a probability distribution, and its total deviation from the Born probabilities is at most twice that error, independent of eps. A state whose norm is wrong by more than eps plus that error is always rejected.", "quantifier": "all MP-POVMs and all PMPSs or MPSs that fit (any number of sites, outcomes, dimensions and ranks), all tensor contractions with relative error u, all tolerances eps", "why_tests_cant": "The bound has to hold for all POVMs and states and for every way the contractions may round; a test sees one set of rounding errors of one library.", "anchors": ["mpnum/povm/mppovm.py:MPPovm.pmf_as_array", "mpnum/povm/mppovm.py:MPPovm._pmf_as_array_pmps_ltr", "mpnum/povm/mppovm.py:MPPovm._pmf_as_array_pmps_symm", "mpnum/utils/pmf.py:project_pmf"]}
{"id": "C84", "title": "Probabilities of local measurements on canonical states are stable", "statement": "For a PMPS in canonical form around some site (all sites to the left of it left-canonical, all sites to the right of it right-canonical, norm one), and an MP-POVM made of one measurement per site, the fast implementations of MPPovm.pmf_as_array ('pmps-ltr', 'pmps-symm' and what 'auto' selects) are numerically stable: before the final projection the computed numbers differ from the Born probabilities by at most 2 R^2 (n R^2 sqrt(d) ((1 + u)^3 - 1) + u) (2-norm over all outcomes), where n is the number of sites, R the largest bond dimension of the state, d the largest local dimension and u the relative error of one tensor contraction (as long as n R^2 sqrt(d) ((1 + u)^3 - 1) + u <= 1). The error does not grow exponentially with the number of sites. For a left-canonical PMPS and 'pmps-ltr' the bound is 2 n R^2 sqrt(d) ((1 + u)^3 - 1). States that are canonical only approximately, as canonicalize() produces them, have a bound with the operator norms of their local tensors; this includes pure states given with mode='mps'. A normalised state is accepted if this error times the square root of the number of outcomes is at most eps < 1, and the result is a probability distribution close to the Born probabilities.", "quantifier": "all numbers of sites, outcomes, dimensions and bond dimensions, all PMPSs (approximately) canonical around any site, all local measurements, all tensor contractions with relative error u", "why_tests_cant": "A statement about the growth of rounding errors with the number of sites, for all states, measurements and ways of rounding.", "anchors": ["mpnum/povm/mppovm.py:MPPovm.pmf_as_array", "mpnum/povm/mppovm.py:MPPovm._pmf_as_array_pmps_ltr", "mpnum/povm/mppovm.py:MPPovm._pmf_as_array_pmps_symm", "mpnum/mparray.py:MPArray.canonicalize"]}
{"id": "C85", "title": "Arguments outside the domain are rejected", "statement": "Whenever a call returns a value, its arguments were admissible. MPArray(ltens) accepts exactly the non-empty lists of arrays whose neighbouring bonds agree; MPPovm(ltens) in addition requires at most 255 outcomes and square operators on every site; vleg2leg accepts exactly the positions of bonds and split everything but the position behind the last bond; leg2vleg only a bond of dimension one between legs of equal size; partialtrace only two different existing legs per site; trace only what leaves a single number; diag only equal numbers of legs and equal dimensions; pack_samples, unpack_samples and est_pmf only samples in the range of the outcomes; lfun and est_lfun only one coefficient per function and one non-negative weight per sample; mps_to_pmps, pmps_to_mps, pmps_dm_to_array, pmps_reduction, inner_prod_mps and special.sumup only states of the required form; eig, eig_sum and compress only the documented parameters.", "quantifier": "all arguments of these functions, admissible or not", "why_tests_cant": "A test shows that particular bad arguments are rejected; here no bad argument may pass.", "anchors": ["mpnum/mpstruct.py:LocalTensors.__init__", "mpnum/povm/mppovm.py:MPPovm.__init__", "mpnum/mparray.py:MPArray.vleg2leg", "mpnum/mparray.py:MPArray.leg2vleg", "mpnum/mparray.py:MPArray.split", "mpnum/mparray.py:partialtrace", "mpnum/mparray.py:trace", "mpnum/mparray.py:diag", "mpnum/mparray.py:MPArray.compress", "mpnum/povm/mppovm.py:MPPovm.pack_samples", "mpnum/povm/mppovm.py:MPPovm.unpack_samples", "mpnum/povm/mppovm.py:MPPovm.est_pmf", "mpnum/povm/mppovm.py:MPPovm.lfun", "mpnum/povm/mppovm.py:MPPovm.est_lfun", "mpnum/mpsmpo.py:mps_to_pmps", "mpnum/mpsmpo.py:pmps_to_mps", "mpnum/mpsmpo.py:pmps_reduction", "mpnum/special.py:inner_prod_mps", "mpnum/special.py:sumup", "mpnum/linalg.py:eig", "mpnum/linalg.py:eig_sum"]}
{"id": "C86", "title": "Threads that work on separate objects do not disturb each other", "statement": "Several threads run programs that call methods of MPArrays. If every thread changes only objects of its own (with canonicalize, norm, compress, *=, assignment to a local tensor or lt.update, or by creating them) and otherwise only reads objects that no thread changes, or calls norm or canonicalize on shared objects that already have the canonical form asked for, then under every schedule each thread that has ended has the result or the exception that its program has alone, its objects are as after the program alone, all other objects are unchanged, and every thread ends after a bounded number of its own steps. The limit of this: norm changes its argument. Two threads that call norm on the same object can return different norms and leave an object that represents another tensor, and a thread that reads an object while another one computes its norm can see another tensor.", "quantifier": "all numbers of threads, all programs made of these calls, all objects and all schedules, where the interpreter may switch threads between any two accesses of an attribute", "why_tests_cant": "A test runs one schedule of very many, and not one it has chosen.", "anchors": ["mpnum/mpstruct.py:LocalTensors.update", "mpnum/mpstruct.py:LocalTensors._update", "mpnum/mparray.py:MPArray.canonicalize", "mpnum/mparray.py:MPArray._compress_svd", "mpnum/mparray.py:norm", "mpnum/mparray.py:MPArray.__imul__"]}
{"id": "C87", "title": "Matrix elements of operators are accurate in floating point arithmetic", "statement": "If every tensor contraction has a relative error of at most u (in the 2-norm, relative to the product of the norms of the factors), sandwich(mpo, mps, mps2) succeeds for the same arguments as in exact arithmetic and its result differs from <mps2|mpo|mps> by at most (1 + u)^(3 n) - 1 times the product of the norms of all local tensors, where n is the number of sites. If the two states are in canonical form (around any sites, which may differ), the error is at most (1 + R ((1 + u)^3 - 1))^n - 1 times the norms of the two states and the norms of the local tensors of the operator, where R is the largest rank of the states: the norms of the local tensors of the states, which grow with the ranks, do not enter. For a state in canonical form the expectation value has an error of at most 10 n R u |mps|^2 times the norms of the local tensors of the operator if 5 n R u <= 1. States that are canonical up to eta, as canonicalize() produces them, have the same bound with the factor ((1 + eta)/(1 - eta))^(2 (n - 1)). Computed as inner(mps2, dot(mpo, mps)), the matrix element has an error of at most (1 + u)^(3 n - 1) - 1 times the product of the norms of all local tensors.", "quantifier": "all numbers of sites, local dimensions and ranks, all operators and states, all tensor contractions with relative error u", "why_tests_cant": "A statement about the growth of rounding errors with the number of sites, for all operators, states and ways of rounding.", "anchors": ["mpnum/mparray.py:sandwich", "mpnum/linalg.py:_eig_leftvec_add", "mpnum/_named_ndarray.py:named_ndarray.tensordot", "mpnum/mparray.py:inner", "mpnum/mparray.py:dot"]}
{"id": "C88", "title": "Traces and partial traces are accurate in floating point arithmetic", "statement": "If numpy.trace computes every entry with an error of at most d times the sum of the absolute values of the terms, and every tensor contraction has a relative error of at most u, partialtrace(mpa, axes) and trace(mpa, axes) succeed for the same arguments as in exact arithmetic, with the same shape and the same ranks. The dense array of the partial trace differs from the exact one by at most (1 + d)^n (1 + u)^(n - 1) - 1 times the product over the sites of the norm of the local tensor times the square root of the number of terms of the trace at the site, where n is the number of sites. The trace of an MPO on a space of dimension D has an error of at most 4 n u sqrt(D) times the product of the norms of the local tensors if d = u and 2 n u <= 1.", "quantifier": "all numbers of sites, legs, local dimensions and ranks, all tensors, all admissible axes, all numpy.trace with error d and tensor contractions with relative error u", "why_tests_cant": "A statement about the growth of rounding errors with the number of sites, for all operators and ways of rounding.", "anchors": ["mpnum/mparray.py:partialtrace", "mpnum/mparray.py:trace", "mpnum/mparray.py:_prune_ltens", "mpnum/mparray.py:MPArray.to_array"]}
{"id": "C89", "title": "Sums over legs are accurate in floating point arithmetic", "statement": "If the sum of a numpy array over axes has in every entry an error of at most d times the sum of the absolute values of the terms, and every tensor contraction has a relative error of at most u, x.sum(axes) succeeds for every documented value of axes as in exact arithmetic. If legs remain, the result has the same shape and ranks as in exact arithmetic and represents a tensor that differs from the exact one by at most (1 + d)^n - 1 times the product over the sites of the norm of the local tensor times the square root of the number of terms of the sum at the site. If no legs remain, the result is a number with the same bound, with the additional factor (1 + u)^(n - 1). The sum x.sum() of all N entries has an error of at most (1 + d)^n (1 + u)^(n - 1) - 1 times sqrt(N) times the product of the norms of the local tensors.", "quantifier": "all numbers of sites, legs, local dimensions and ranks, all tensors, all documented values of axes, all numpy sums with error d and tensor contractions with relative error u", "why_tests_cant": "A statement about the growth of rounding errors with the number of sites, for all tensors and ways of rounding.", "anchors": ["mpnum/mparray.py:MPArray.sum", "mpnum/mparray.py:MPArray.to_array"]}
{"id": "C90", "title": "Reduced states and density matrices are accurate in floating point arithmetic", "statement": "If numpy.trace computes every entry with an error of at most d times the sum of the absolute values of the terms, and every tensor contraction has a relative error of at most u, reductions_mpo(mpo, ...) yields for every sequence of windows (in any order, with repetitions, so for every state of its caches) the partial traces over all sites outside of the window, with the exact shapes and ranks. The Frobenius norm of the error of the reduced operator on w consecutive of n sites is at most (1 + d)^(n - w) (1 + u)^(n - w + 2) - 1 times the square root of the dimension of the space that is traced out times the product of the norms of all local tensors. pmps_to_mpo(pmps) is the density matrix of the purification with an error of at most (1 + u)^n - 1 times the square of the product of the norms of all local tensors, and with the exact shape and ranks.", "quantifier": "all numbers of sites, local dimensions and ranks, all operators and purifications, all sequences of windows, all numpy.trace with error d and tensor contractions with relative error u", "why_tests_cant": "A statement about the growth of rounding errors with the number of sites, for all operators, histories of the caches and ways of rounding.", "anchors": ["mpnum/mpsmpo.py:reductions_mpo", "mpnum/mpsmpo.py:pmps_to_mpo"]}
{"id": "C91", "title": "Outcome probabilities of density matrices are accurate in floating point arithmetic", "statement": "MPPovm.expectations(rho, mode='mpdo') for an MP-POVM on w sites and a density matrix on n >= w sites in MPO form yields in floating point arithmetic one MPA per position of the MP-POVM, from left to right, with exactly the shape given by the numbers of outcomes. The numbers differ from the Born probabilities tr(M_Y rho_red) of the reduced states (2-norm over all outcomes) by at most (1 + d)^(n - w) (1 + u)^(n + 2) - 1 times the square root of the dimension of the space that is traced out times the product of the norms of all local tensors of the MP-POVM and of rho, where numpy.trace has the relative error d per entry and each tensor contraction the relative error u. For w = n, which is MPPovm.pmf, the error is at most (1 + u)^(n + 2) - 1 times the product of the norms. MPPovm.pmf_as_array(rho, mode, eps, impl) with the implementation 'default' (the one chosen for density matrices) differs before the final projection from the Born probabilities by at most e = (1 + u)^(2n + 1) - 1 times the product of the norms, with exactly the shape of the exact result. If e times the square root of the number of outcomes is at most eps < 1, a state is never rejected, the returned array is a probability distribution and its total deviation from the Born probabilities is at most twice that number; an operator whose trace deviates from one by more than eps plus that number is rejected.", "quantifier": "all MP-POVMs and density matrices (any numbers of sites and outcomes, local dimensions and ranks), all numpy.trace with error d and tensor contractions with relative error u", "why_tests_cant": "A statement about the growth of rounding errors with the number of sites, for all measurements, states and ways of rounding.", "anchors": ["mpnum/povm/mppovm.py:MPPovm.expectations", "mpnum/povm/mppovm.py:MPPovm.pmf", "mpnum/povm/mppovm.py:MPPovm.probability_map", "mpnum/mpsmpo.py:reductions_mpo", "mpnum/povm/mppovm.py:MPPovm.pmf_as_array", "mpnum/mparray.py:prune"]}
{"id": "C92", "title": "Dense density matrices, projectors and pruned chains are accurate in floating point arithmetic", "statement": "pmps_dm_to_array(pmps) and pmps_dm_to_array(pmps, global_=True) return in floating point arithmetic an array of exactly the documented shape (legs of dimension one removed). Its 2-norm distance to the density matrix of the locally purified state on n sites is at most (1 + u)^(2 n) - 1 times the product of the squared norms of the local tensors, where each tensor contraction has the relative error u. mps_to_mpo(mps) returns an MPO with the squared ranks of the MPS whose distance to |psi><psi| is at most (1 + u)^n - 1 times the same product. prune(x) and prune(x, singletons=True) return in floating point arithmetic an MPA with exactly the legs of the exact result, at a distance of at most (1 + u)^k - 1 times the product of the norms of the local tensors of x, where k is the number of sites that are removed.", "quantifier": "all MPAs, pure and locally purified states (any number of sites, local dimensions and positive ranks), all tensor contractions with relative error u", "why_tests_cant": "A statement about the growth of rounding errors with the number of sites, for all states and ways of rounding.", "anchors": ["mpnum/mpsmpo.py:pmps_dm_to_array", "mpnum/mpsmpo.py:mps_to_mpo", "mpnum/mparray.py:prune"]}
