{"id": "C01", "title": "Domain map is a bijection with the advertised slope", "statement": "For a Fun on [a,b] with a<b, mapping.fwd sends [-1,1] onto [a,b] (endpoints to endpoints, increasing), mapping.bwd is its two-sided inverse, and mapping.der is the derivative of fwd; consequently evaluation of a Fun is defined exactly for x in [a,b].", "quantifier": "all domains a<b, all points", "why_tests_cant": "Real inputs form a continuum and coefficient arrays have arbitrary length; a test samples finitely many of them.", "anchors": ["funpy/mapping.py:Mapping", "funpy/fun.py:Fun.__call__"]}
{"id": "C02", "title": "Evaluation returns the Chebyshev series", "statement": "Evaluating a Chebyshev Fun column with coefficients c at x returns sum_k c_k T_k(x), for every coefficient length >= 1 (even or odd), and the scalar and array-valued evaluation paths agree column by column.", "quantifier": "all coefficient arrays of any length, all x", "why_tests_cant": "Real inputs form a continuum and coefficient arrays have arbitrary length; a test samples finitely many of them.", "anchors": ["funpy/cheb/detail.pyx:clenshaw_scalar,clenshaw_vector,clenshaw", "funpy/cheb/chebtech.py:chebtech.feval"]}
{"id": "C03", "title": "lval / rval are the end-point values", "statement": "lval() equals f(-1) and rval() equals f(+1) for every function.", "quantifier": "all coefficient arrays", "why_tests_cant": "Real inputs form a continuum and coefficient arrays have arbitrary length; a test samples finitely many of them.", "anchors": ["funpy/cheb/chebtech.py:lval,rval"]}
{"id": "C04", "title": "flipud reverses the function", "statement": "flipud() returns g with g(x)=f(-x) for all x, leaves f unchanged, and is an involution.", "quantifier": "all coefficient arrays, all x", "why_tests_cant": "Real inputs form a continuum and coefficient arrays have arbitrary length; a test samples finitely many of them.", "anchors": ["funpy/cheb/chebtech.py:flipud"]}
{"id": "C05", "title": "prolong pads without changing the function and truncates to the requested length", "statement": "prolong(N) yields exactly N coefficients (N>=0); if N is at least the current length the represented function is unchanged; if smaller, the first N coefficients are kept; prolonging up and back down restores the original.", "quantifier": "all coefficient arrays, all N", "why_tests_cant": "Real inputs form a continuum and coefficient arrays have arbitrary length; a test samples finitely many of them.", "anchors": ["funpy/cheb/detail.pyx:prolong", "funpy/cheb/chebtech.py:prolong,prolong_coeffs"]}
{"id": "C06", "title": "values are the function at the Chebyshev points", "statement": "f.values (polyval) at index j equals f evaluated at the j-th Chebyshev point f.x[j], and those points increase from -1 to 1 and are symmetric about 0.", "quantifier": "all lengths N and all coefficient arrays", "why_tests_cant": "Real inputs form a continuum and coefficient arrays have arbitrary length; a test samples finitely many of them.", "anchors": ["funpy/cheb/detail.pyx:polyval", "funpy/cheb/pts.py:chebpts_type2_compute"]}
{"id": "C07", "title": "values/coefficients transforms are mutually inverse", "statement": "polyfit(polyval(c)) = c and polyval(polyfit(v)) = v for arrays of any length; hence a Fun built from samples interpolates them.", "quantifier": "all lengths and arrays", "why_tests_cant": "Real inputs form a continuum and coefficient arrays have arbitrary length; a test samples finitely many of them.", "anchors": ["funpy/cheb/detail.pyx:polyfit,polyval", "funpy/cheb/chebtech.py:from_values"]}
{"id": "C08", "title": "diff returns the derivative", "statement": "np.diff(f,n=k) (k>=1) represents the k-th derivative of f (of its simplified form) on [-1,1], is zero when k is at least the number of coefficients, and on a domain [a,b] is the derivative with respect to the domain variable.", "quantifier": "all coefficient arrays, all k>=1, all domains", "why_tests_cant": "Real inputs form a continuum and coefficient arrays have arbitrary length; a test samples finitely many of them.", "anchors": ["funpy/cheb/diff.py:computeDerCoeffs", "funpy/cheb/chebtech.py:diff", "funpy/fun.py:diff"]}
{"id": "C09", "title": "diff of order zero is the identity", "statement": "np.diff(f, n=0) returns f (as numpy's diff does for arrays).", "quantifier": "all functions", "why_tests_cant": "One would have to try all functions; and the suite never calls it.", "anchors": ["funpy/cheb/chebtech.py:diff"]}
{"id": "C10", "title": "sum is the definite integral", "statement": "np.sum(f) equals the integral of f over its domain, for every length including constants.", "quantifier": "all coefficient arrays and domains", "why_tests_cant": "Real inputs form a continuum and coefficient arrays have arbitrary length; a test samples finitely many of them.", "anchors": ["funpy/cheb/chebtech.py:sum", "funpy/fun.py:sum"]}
{"id": "C11", "title": "cumsum is the antiderivative vanishing at the left end", "statement": "np.cumsum(f) has derivative f (up to simplification), vanishes at the left end point, and its right end value is the integral of f.", "quantifier": "all coefficient arrays", "why_tests_cant": "Real inputs form a continuum and coefficient arrays have arbitrary length; a test samples finitely many of them.", "anchors": ["funpy/cheb/chebtech.py:cumsum", "funpy/fun.py:cumsum"]}
{"id": "C12", "title": "Addition, subtraction, negation and scalar operations are pointwise", "statement": "(f+g)(x)=f(x)+g(x), (f-g), (-f), (f+s), (s*f), (f/s) are pointwise, except that a sum all of whose coefficients are below 0.2*eps*max(vscl) is replaced by the zero function, an error of at most 0.2*eps*vscale per coefficient.", "quantifier": "all pairs of functions of any (different) lengths, all scalars, all x", "why_tests_cant": "Real inputs form a continuum and coefficient arrays have arbitrary length; a test samples finitely many of them.", "anchors": ["funpy/cheb/ufuncs.pyx:add,subtract,negative,multiply,true_divide"]}
{"id": "C13", "title": "Multiplication is pointwise", "statement": "The coefficient-space product of f and g has length len(f)+len(g)-1 and evaluates to f(x)g(x) at all x (the FFT circulant has no aliasing); multiply() then only simplifies, and multiplying a function by itself gives the square.", "quantifier": "all pairs of coefficient arrays of any lengths, all x", "why_tests_cant": "Real inputs form a continuum and coefficient arrays have arbitrary length; a test samples finitely many of them.", "anchors": ["funpy/cheb/ufuncs.pyx:coeff_times,coeff_times_main,multiply"]}
{"id": "C14", "title": "Multiplying by a constant function works for array-valued functions", "statement": "f*g with g a one-coefficient (constant) array-valued function gives the pointwise product, as for non-constant g.", "quantifier": "all array-valued f and constant g", "why_tests_cant": "The failing case needs a shape combination the tests do not enumerate.", "anchors": ["funpy/cheb/ufuncs.pyx:multiply"]}
{"id": "C15", "title": "innerw is the Chebyshev-weighted inner product", "statement": "innerw(f,g) equals the integral of f g / sqrt(1-x^2) over (-1,1); it is symmetric, bilinear and positive definite.", "quantifier": "all coefficient arrays of any lengths", "why_tests_cant": "Real inputs form a continuum and coefficient arrays have arbitrary length; a test samples finitely many of them.", "anchors": ["funpy/cheb/chebtech.py:innerw", "funpy/fun.py:innerw"]}
{"id": "C16", "title": "quadwts integrates polynomials exactly", "statement": "For N points the Clenshaw-Curtis rule sum_j w_j p(x_j) equals the integral of p over [-1,1] for every polynomial p of degree < N; in particular the weights sum to 2.", "quantifier": "all N and all polynomials of degree < N", "why_tests_cant": "Real inputs form a continuum and coefficient arrays have arbitrary length; a test samples finitely many of them.", "anchors": ["funpy/cheb/pts.py:quadwts,chebpts_type2"]}
{"id": "C17", "title": "inner is the L2 inner product", "statement": "np.inner(f,g)[i,j] equals the integral of f_i g_j over the domain, exactly, for functions of any lengths; np.inner(f,f) has a non-negative diagonal.", "quantifier": "all coefficient arrays", "why_tests_cant": "Real inputs form a continuum and coefficient arrays have arbitrary length; a test samples finitely many of them.", "anchors": ["funpy/cheb/chebtech.py:inner,dot", "funpy/fun.py:inner,dot"]}
{"id": "C18", "title": "hstack and column indexing are inverse", "statement": "For functions on a common domain, column i of hstack(fs) is (as a function) the corresponding column of the corresponding input, whatever the lengths; out-of-range indices raise IndexError.", "quantifier": "all lists of functions, all indices", "why_tests_cant": "Real inputs form a continuum and coefficient arrays have arbitrary length; a test samples finitely many of them.", "anchors": ["funpy/cheb/chebtech.py:hstack,__getitem__", "funpy/fun.py:hstack"]}
{"id": "C19", "title": "flatten / from_coeffs round trip", "statement": "Fun.from_coeffs(f.flatten(), m) has exactly f's coefficients for every shape (n,m); conversely flatten(from_coeffs(v,m)) = v whenever m divides len(v), and construction is refused otherwise.", "quantifier": "all shapes and arrays", "why_tests_cant": "Real inputs form a continuum and coefficient arrays have arbitrary length; a test samples finitely many of them.", "anchors": ["funpy/fun.py:flatten,from_coeffs"]}
{"id": "C20", "title": "standardChop always returns a legal cutoff", "statement": "standardChop terminates with 0 <= cutoff <= n for every coefficient vector and tolerance in (0,1); zero vectors give 0; vectors shorter than 17 are not chopped.", "quantifier": "all coefficient vectors of any length, all tolerances", "why_tests_cant": "Real inputs form a continuum and coefficient arrays have arbitrary length; a test samples finitely many of them.", "anchors": ["funpy/cheb/detail.pyx:standardChop"]}
{"id": "C21", "title": "Chopping is relative: scale invariance", "statement": "The cutoff chosen for s*c equals the cutoff chosen for c (tolerance is documented as relative accuracy, the envelope as normalised to begin with 1).", "quantifier": "all coefficient vectors, all scales s>0", "why_tests_cant": "Real inputs form a continuum and coefficient arrays have arbitrary length; a test samples finitely many of them.", "anchors": ["funpy/cheb/detail.pyx:standardChop"]}
{"id": "C22", "title": "simplify keeps a prefix and bounds what it discards", "statement": "simplify returns an initial segment of the (zero-padded) coefficients, never alters a kept one, and every discarded coefficient is bounded by the plateau level; if nothing is chopped the function is unchanged.", "quantifier": "all coefficient arrays", "why_tests_cant": "Real inputs form a continuum and coefficient arrays have arbitrary length; a test samples finitely many of them.", "anchors": ["funpy/cheb/detail.pyx:simplify_coeffs,standardChop"]}
{"id": "C23", "title": "simplify never lengthens a function", "statement": "simplify() never increases the number of coefficients.", "quantifier": "all coefficient arrays", "why_tests_cant": "Real inputs form a continuum and coefficient arrays have arbitrary length; a test samples finitely many of them.", "anchors": ["funpy/cheb/detail.pyx:simplify_coeffs"]}
{"id": "C24", "title": "Adaptive construction samples the function on nested Chebyshev grids", "statement": "Along any run of the adaptive constructor with the nested strategy, the stored values are exactly the user's function sampled at the Chebyshev points of the current size, sizes follow n -> 2n-1 and never exceed maxLength, and the loop stops.", "quantifier": "all user functions, all refinement histories", "why_tests_cant": "Refinement histories are unbounded and depend on an arbitrary callable.", "anchors": ["funpy/cheb/refine.py:Refine", "funpy/cheb/chebtech.py:populate"]}
{"id": "C25", "title": "Operations on functions with different domains are rejected", "statement": "Applying a numpy ufunc to two Funs whose domains differ raises ValueError, irrespective of operand order.", "quantifier": "all pairs of domains", "why_tests_cant": "Real inputs form a continuum and coefficient arrays have arbitrary length; a test samples finitely many of them.", "anchors": ["funpy/fun.py:Fun.__array_ufunc__"]}
{"id": "C26", "title": "Copies preserve the function and its settings", "statement": "copy.deepcopy(f) and np.copy(f) yield a function with the same coefficients, domain, eps, hscale, maxLength and happiness, sharing no coefficient storage.", "quantifier": "all functions", "why_tests_cant": "Real inputs form a continuum and coefficient arrays have arbitrary length; a test samples finitely many of them.", "anchors": ["funpy/cheb/chebtech.py:__deepcopy__,copy", "funpy/trig/trigtech.py:__deepcopy__", "funpy/fun.py:__deepcopy__,copy"]}
{"id": "C27", "title": "HDF5 write then read restores the function", "statement": "Reading back what writeHDF5 wrote yields the same coefficients, domain and settings.", "quantifier": "all functions", "why_tests_cant": "Real inputs form a continuum and coefficient arrays have arbitrary length; a test samples finitely many of them.", "anchors": ["funpy/fun.py:writeHDF5,from_hdf5", "funpy/cheb/chebtech.py:writeHDF5,from_hdf5"]}
{"id": "C28", "title": "Root finding: colleague pencil has exactly the roots of the polynomial", "statement": "For a polynomial with at least 3 Chebyshev coefficients, x is a generalised eigenvalue of the pencil handed to the eigensolver iff f(x)=0; the linear case returns the unique root; the split recursion maps roots of the halves back to roots of f.", "quantifier": "all polynomials and all x", "why_tests_cant": "Real inputs form a continuum and coefficient arrays have arbitrary length; a test samples finitely many of them.", "anchors": ["funpy/cheb/detail.pyx:roots_main"]}
{"id": "C29", "title": "Root finding: linear roots outside the domain are not reported", "statement": "roots(f) for a linear f reports only roots inside [-1,1], like for higher degrees.", "quantifier": "all linear f", "why_tests_cant": "Real inputs form a continuum and coefficient arrays have arbitrary length; a test samples finitely many of them.", "anchors": ["funpy/cheb/detail.pyx:roots_main"]}
{"id": "C30", "title": "Trigonometric evaluation returns the Fourier series", "statement": "Evaluating a trig Fun with coefficients c at x returns sum_k c_k exp(i pi k x) over the centred wave numbers (for even lengths the unpaired mode acts as a cosine).", "quantifier": "all lengths, all coefficient arrays, all x", "why_tests_cant": "Real inputs form a continuum and coefficient arrays have arbitrary length; a test samples finitely many of them.", "anchors": ["funpy/trig/eval.py:horner", "funpy/trig/trigtech.py:feval"]}
{"id": "C31", "title": "Trigonometric value/coefficient transforms are mutually inverse", "statement": "vals2coeffs and coeffs2vals are inverse for every length, and values are the series evaluated at the equispaced points.", "quantifier": "all lengths and arrays", "why_tests_cant": "Real inputs form a continuum and coefficient arrays have arbitrary length; a test samples finitely many of them.", "anchors": ["funpy/trig/transform.py:vals2coeffs,coeffs2vals", "funpy/trig/trigpts.py"]}
{"id": "C32", "title": "Trigonometric prolong preserves the function", "statement": "Padding a trig Fun to more coefficients leaves the represented function unchanged, for all parities of the old and new lengths.", "quantifier": "all coefficient arrays, all target lengths", "why_tests_cant": "Real inputs form a continuum and coefficient arrays have arbitrary length; a test samples finitely many of them.", "anchors": ["funpy/trig/trigtech.py:prolong,prolong_coeffs"]}
{"id": "C33", "title": "Trigonometric sum is the integral", "statement": "np.sum of a trig Fun equals its integral over the period.", "quantifier": "all coefficient arrays", "why_tests_cant": "Real inputs form a continuum and coefficient arrays have arbitrary length; a test samples finitely many of them.", "anchors": ["funpy/trig/trigtech.py:sum"]}
{"id": "C34", "title": "Trigonometric diff is the derivative", "statement": "np.diff(f,n) of a trig Fun represents the n-th derivative.", "quantifier": "all coefficient arrays and n", "why_tests_cant": "Real inputs form a continuum and coefficient arrays have arbitrary length; a test samples finitely many of them.", "anchors": ["funpy/trig/trigtech.py:diff"]}
{"id": "C35", "title": "Trigonometric cumsum is the antiderivative", "statement": "np.cumsum(f) of a mean-zero trig Fun has derivative f and vanishes at the left end point.", "quantifier": "all mean-zero trig functions", "why_tests_cant": "Real inputs form a continuum and coefficient arrays have arbitrary length; a test samples finitely many of them.", "anchors": ["funpy/trig/trigtech.py:cumsum"]}
{"id": "C36", "title": "roll shifts the function", "statement": "np.roll(f,a)(x)=f(x-a) for a periodic Fun on any domain.", "quantifier": "all trig functions, all shifts, all domains", "why_tests_cant": "Real inputs form a continuum and coefficient arrays have arbitrary length; a test samples finitely many of them.", "anchors": ["funpy/trig/operations.py:circshift", "funpy/fun.py:roll"]}
{"id": "C37", "title": "Trigonometric conj and real are pointwise", "statement": "np.conj(f)(x)=conj(f(x)) and np.real(f)(x)=Re f(x).", "quantifier": "all trig functions", "why_tests_cant": "Real inputs form a continuum and coefficient arrays have arbitrary length; a test samples finitely many of them.", "anchors": ["funpy/trig/trigtech.py:conj,real"]}
{"id": "C38", "title": "Number divided by a trig function is the reciprocal", "statement": "(s/f)(x)=s/f(x) for a trig Fun f.", "quantifier": "all s and f", "why_tests_cant": "Real inputs form a continuum and coefficient arrays have arbitrary length; a test samples finitely many of them.", "anchors": ["funpy/trig/ufuncs.py:true_divide"]}
{"id": "C39", "title": "Ultraspherical conversion preserves the function", "statement": "The conversion operator maps C^(lam) coefficients to C^(lam+1) coefficients of the same function, for every lam>=0 and size, on coefficient vectors of any length.", "quantifier": "all sizes, orders and vectors", "why_tests_cant": "Real inputs form a continuum and coefficient arrays have arbitrary length; a test samples finitely many of them.", "anchors": ["funpy/colloc/ultraS/matrices.py:spconvert,convertmat"]}
{"id": "C40", "title": "Ultraspherical differentiation operator", "statement": "diffmat(n,m) applied to Chebyshev coefficients yields the C^(m) coefficients of the m-th derivative.", "quantifier": "all n, m and coefficient vectors", "why_tests_cant": "Real inputs form a continuum and coefficient arrays have arbitrary length; a test samples finitely many of them.", "anchors": ["funpy/colloc/ultraS/matrices.py:diffmat"]}
{"id": "C41", "title": "Ultraspherical multiplication operator", "statement": "multmat(n,f,0) (resp. 1) applied to coefficients of g gives the coefficients of f*g in T (resp. U), whenever n is large enough to hold the product.", "quantifier": "all n, f, g", "why_tests_cant": "Real inputs form a continuum and coefficient arrays have arbitrary length; a test samples finitely many of them.", "anchors": ["funpy/colloc/ultraS/matrices.py:multmat"]}
{"id": "C42", "title": "Conversion inverse", "statement": "spconvert_inv(n,lam) inverts spconvert(n,lam) for every n and lam.", "quantifier": "all n and lam", "why_tests_cant": "Real inputs form a continuum and coefficient arrays have arbitrary length; a test samples finitely many of them.", "anchors": ["funpy/colloc/ultraS/matrices.py:spconvert_inv"]}
{"id": "C43", "title": "Sparse row/column deletion", "statement": "Deleting rows (columns) of a CSR (CSC) matrix yields the matrix with exactly those rows (columns) removed, all other entries intact.", "quantifier": "all sparse matrices and index sets", "why_tests_cant": "Real inputs form a continuum and coefficient arrays have arbitrary length; a test samples finitely many of them.", "anchors": ["funpy/colloc/sparse/csr.py", "funpy/colloc/sparse/csc.py"]}
{"id": "C44", "title": "Bordered linear solver", "statement": "The block-elimination solver returns the solution of the bordered system [A b; c d][x;y]=[f;g] whenever the pivots it divides by are non-zero, including the adjoint variant and the null-space/minimum-norm variants.", "quantifier": "all dimensions, matrices and right-hand sides", "why_tests_cant": "Real inputs form a continuum and coefficient arrays have arbitrary length; a test samples finitely many of them.", "anchors": ["funpy/linalg/bem_solve.py"]}
{"id": "C45", "title": "Pseudo-arclength (Schur) solver", "statement": "The Schur-complement Newton step solves the full bordered continuation system.", "quantifier": "all states", "why_tests_cant": "Real inputs form a continuum and coefficient arrays have arbitrary length; a test samples finitely many of them.", "anchors": ["funpy/linalg/schur_solve.py"]}
{"id": "C46", "title": "Permutation sign", "statement": "minimumSwaps returns a number of transpositions sorting the permutation, so its parity is the sign used in the determinant.", "quantifier": "all permutations", "why_tests_cant": "Real inputs form a continuum and coefficient arrays have arbitrary length; a test samples finitely many of them.", "anchors": ["funpy/linalg/helpers.py:minimumSwaps"]}
{"id": "C47", "title": "Hessenberg determinant", "statement": "detH(A) is the determinant of an upper Hessenberg matrix A.", "quantifier": "all Hessenberg matrices", "why_tests_cant": "Real inputs form a continuum and coefficient arrays have arbitrary length; a test samples finitely many of them.", "anchors": ["funpy/linalg/helpers.py:detH"]}
{"id": "C48", "title": "Numeric helper functions", "statement": "findNextPowerOf2(n) is the least power of two >= n (n>=2); round_up(n,d) the least multiple of d >= n; secant finds the zero of the interpolating line; moving_average(a,n) the window means.", "quantifier": "all arguments", "why_tests_cant": "Real inputs form a continuum and coefficient arrays have arbitrary length; a test samples finitely many of them.", "anchors": ["funpy/support/tools.py"]}
{"id": "C49", "title": "State arithmetic is componentwise", "statement": "Arithmetic on states combines functions and parameters componentwise and preserves shapes; np.dot is symmetric/bilinear and equals the sum of component inner products.", "quantifier": "all states", "why_tests_cant": "Real inputs form a continuum and coefficient arrays have arbitrary length; a test samples finitely many of them.", "anchors": ["funpy/vectorspaces/base_state.py"]}
{"id": "C50", "title": "State real/imag/conj", "statement": "np.real/imag/conj on a state act on every component.", "quantifier": "all states with any number of functions and parameters", "why_tests_cant": "Real inputs form a continuum and coefficient arrays have arbitrary length; a test samples finitely many of them.", "anchors": ["funpy/vectorspaces/base_state.py:real,imag,conj"]}
{"id": "C51", "title": "State flatten/from_coeffs round trip", "statement": "Rebuilding a continuation state from its flattened coefficients gives back the functions and parameters.", "quantifier": "all states", "why_tests_cant": "Real inputs form a continuum and coefficient arrays have arbitrary length; a test samples finitely many of them.", "anchors": ["funpy/vectorspaces/*.py"]}
{"id": "C52", "title": "Newton loops stop and report honestly", "statement": "The Newton iterations perform at most the configured number of steps, and report success only if the last correction met the tolerance.", "quantifier": "all residual/solver behaviours", "why_tests_cant": "The solver oracle is arbitrary; histories are unbounded.", "anchors": ["funpy/newton/newton_standard.py", "funpy/newton/nleq_err.py", "funpy/newton/qnerr.py"]}
{"id": "C53", "title": "Deflation factor", "statement": "The deflation factor is at least shift^k (no root is created far from known solutions), deflated residual zeros away from known solutions are exactly zeros of the original residual, and the factor exceeds any bound near a known solution.", "quantifier": "all states, all known-solution lists", "why_tests_cant": "Real inputs form a continuum and coefficient arrays have arbitrary length; a test samples finitely many of them.", "anchors": ["funpy/newton/deflation.py", "funpy/newton/deflated_residual.py"]}
{"id": "C54", "title": "Deflated Jacobian", "statement": "The deflated operator is linear and its preconditioner inverts the rank-one update when given an exact inverse of the base operator.", "quantifier": "all operators and vectors", "why_tests_cant": "Real inputs form a continuum and coefficient arrays have arbitrary length; a test samples finitely many of them.", "anchors": ["funpy/newton/FrechetDeflated.py", "funpy/newton/FrechetDeflatedPrecond.py"]}
{"id": "C55", "title": "Barycentric interpolation matrix", "statement": "Rows of barymat sum to one, barymat at a node selects that node, and barymat applied to samples of a polynomial of degree < N reproduces it everywhere.", "quantifier": "all N, all points, all polynomials of degree < N", "why_tests_cant": "Real inputs form a continuum and coefficient arrays have arbitrary length; a test samples finitely many of them.", "anchors": ["funpy/cheb/pts.py:barymat,bary_weights"]}
{"id": "C56", "title": "Ultraspherical/Jacobi coefficient conversion", "statement": "ultra2ultra and jac2jac map coefficients between polynomial bases without changing the polynomial.", "quantifier": "all lengths and parameters", "why_tests_cant": "Real inputs form a continuum and coefficient arrays have arbitrary length; a test samples finitely many of them.", "anchors": ["funpy/ultra.py"]}
{"id": "C57", "title": "chebpts on an interval: nodes and quadrature weights match", "statement": "For every N, every interval [a,b] and both kinds of points, chebpts(N, interval, type) returns nodes in [a,b] and weights that integrate every polynomial of degree < N over [a,b] exactly (and, on [-1,1], angles with x = cos t).", "quantifier": "all N, all intervals, type 1 and 2", "why_tests_cant": "Real inputs form a continuum and sizes are unbounded; a test samples finitely many of them.", "anchors": ["funpy/cheb/pts.py:chebpts,chebpts_type1,chebpts_type2,scaleNodes,scaleWeights"]}
{"id": "C58", "title": "diffmat differentiates exactly", "statement": "For every N >= 2 and order k, diffmat(chebpts(N), k) maps the values of a polynomial of degree < N at the Chebyshev points to the values of its k-th derivative there.", "quantifier": "all N >= 2, all orders k, all polynomials of degree < N", "why_tests_cant": "Real inputs form a continuum and sizes are unbounded; a test samples finitely many of them.", "anchors": ["funpy/cheb/diff.py:diffmat", "funpy/cheb/pts.py:bary_weights"]}
{"id": "C59", "title": "Evaluating a periodic function is a query", "statement": "Evaluating a trig Fun does not change it: a second evaluation at the same point returns the same value.", "quantifier": "all trig functions and points", "why_tests_cant": "Real inputs form a continuum and coefficient arrays have arbitrary length; a test samples finitely many of them.", "anchors": ["funpy/trig/eval.py:horner,horner_scl_real,horner_vec_real"]}
{"id": "C60", "title": "Trigonometric inner product", "statement": "np.inner(f,g) of periodic Funs is the L2 inner product integral of f conj(g) over the domain, for all pairs of columns.", "quantifier": "all pairs of trig functions of any lengths", "why_tests_cant": "Real inputs form a continuum and coefficient arrays have arbitrary length; a test samples finitely many of them.", "anchors": ["funpy/trig/trigtech.py:inner", "funpy/fun.py:inner"]}
{"id": "C61", "title": "Trigonometric arithmetic is pointwise", "statement": "f+g, f-g, -f, f+s, f*s and f/s of periodic Funs represent the pointwise results, for all lengths and number types.", "quantifier": "all trig functions of any lengths and parities, all numbers", "why_tests_cant": "Real inputs form a continuum and coefficient arrays have arbitrary length; a test samples finitely many of them.", "anchors": ["funpy/trig/ufuncs.py:add,subtract,negative,multiply,true_divide"]}
{"id": "C62", "title": "Trigonometric product is pointwise", "statement": "f*g of periodic Funs represents the pointwise product (before trailing coefficients are dropped).", "quantifier": "all pairs of trig functions", "why_tests_cant": "Real inputs form a continuum and coefficient arrays have arbitrary length; a test samples finitely many of them.", "anchors": ["funpy/trig/ufuncs.py:multiply", "funpy/trig/trigtech.py:coeff_times"]}
{"id": "C63", "title": "Trigonometric simplify keeps the leading modes", "statement": "simplify on a periodic Fun returns a function whose coefficients are the central coefficients of the old one (no coefficient is altered or reordered; for an even length the unpaired highest mode is first split symmetrically into two), and the result is never longer than the old one, except by one when an even length is split. Every dropped pair of modes is at most eps^(1/3), so the function changes by at most (number of dropped pairs)*eps^(1/3).", "quantifier": "all trig functions and tolerances", "why_tests_cant": "Real inputs form a continuum and coefficient arrays have arbitrary length; a test samples finitely many of them.", "anchors": ["funpy/trig/trigtech.py:simplify,simplify_coeffs"]}
{"id": "C64", "title": "Circular convolution", "statement": "The circular convolution of two periodic Funs represents the convolution integral over the period.", "quantifier": "all pairs of trig functions", "why_tests_cant": "Real inputs form a continuum and coefficient arrays have arbitrary length; a test samples finitely many of them.", "anchors": ["funpy/trig/operations.py:circconv"]}
{"id": "C65", "title": "Ultraspherical discretisation of a linear operator", "statement": "The matrix assembled for the operator sum_j a_j(x) d^j/dx^j + sum_i c_i(x) int d_i u on [a,b], applied to the Chebyshev coefficients of u, gives the coefficients (in the output ultraspherical basis) of the operator applied to u, whenever the products fit into the discretisation size.", "quantifier": "all operators, intervals, sizes, output spaces and functions u", "why_tests_cant": "Real inputs form a continuum and coefficient arrays have arbitrary length; a test samples finitely many of them.", "anchors": ["funpy/colloc/ultraS/ultraS.py:quasi2diffmat,convert,diff,int,mult"]}
{"id": "C66", "title": "Sparse stacking, reordering and thresholding", "statement": "csr_vappend(a, b) is the matrix b stacked below a; flip_rows/flip_cols with a permutation p return the matrix whose q-th row/column is the old p[q]-th one; eliminate_zeros(mat, eps) zeroes exactly the entries with modulus below eps and stores no zeros.", "quantifier": "all well-formed compressed matrices, all permutations, all thresholds", "why_tests_cant": "index bookkeeping must be right for every sparsity pattern (empty rows, full rows, unsorted indices) and every permutation", "anchors": ["funpy/colloc/sparse/csr.py:csr_vappend,eliminate_zeros,flip_rows", "funpy/colloc/sparse/csc.py:flip_cols,eliminate_zeros_csc"]}
{"id": "C67", "title": "Projection of a spectral discretization", "statement": "reduceOne(A, S, m, n) returns P and P*A where P drops the last m of n coefficients: PA consists of the first n-m rows of A and equals the matrix product P*A.", "quantifier": "all sparse matrices A with n rows, all projection orders m <= n", "why_tests_cant": "must hold for every size, every projection order and every sparsity pattern", "anchors": ["funpy/colloc/ultraS/matrices.py:reduceOne,delete_rows"]}
{"id": "C68", "title": "Multiply bordered solver", "statement": "BEMW.solve / solve_adj return a solution of the (transposed) matrix BEMW.mat whenever all bordered blocks are nonsingular, the pivots divided by are non-zero, and min_norm(f) is the minimum-norm vector satisfying all but the last equation.", "quantifier": "all inner matrices with exact solver, all numbers of borders, all right-hand sides, all contents of the uninitialised work storage", "why_tests_cant": "correctness depends on the packed storage layout for every number of borders and every size", "anchors": ["funpy/linalg/bemw_solve.py"]}
{"id": "C69", "title": "Bifurcation test function", "statement": "bif_pt and bif_dir of the pseudo-arclength solver return (tau, Y) solving the doubly bordered system [Fu Fa B_u; T_u T_a B_l; C_u C_l 0](Y, tau) = (0, 0, 1).", "quantifier": "all operators, border vectors and tangents with non-zero Schur complements", "why_tests_cant": "an algebraic identity over all operators and borders", "anchors": ["funpy/linalg/schur_solve.py:bif_pt,bif_dir"]}
{"id": "C70", "title": "Log-determinant from a sparse LU", "statement": "logdet(M) (and its UMFPACK variant) returns the sign of det M and log|det M| for every nonsingular M, whatever permutations the sparse LU chose.", "quantifier": "all nonsingular square matrices and all factorisations returned by the LU library", "why_tests_cant": "Real inputs form a continuum and matrices have arbitrary size; a test samples finitely many of them.", "anchors": ["funpy/linalg/helpers.py:logdet_detail_superlu", "funpy/linalg/helpers.py:logdet_detail_umfpack", "funpy/linalg/helpers.py:logdet"]}
{"id": "C71", "title": "Givens rotations and Hessenberg log-determinant", "statement": "givensAlgorithm(f,g) returns a rotation mapping (f,g) to (r,0); slogdet_hessenberg(H) returns the sign of det H and log|det H| for every nonsingular upper Hessenberg H and raises for singular ones.", "quantifier": "all real pairs (f,g) in all scaling branches; all upper Hessenberg matrices of any size", "why_tests_cant": "Real inputs form a continuum and matrices have arbitrary size; a test samples finitely many of them.", "anchors": ["funpy/linalg/helpers.py:givensAlgorithm", "funpy/linalg/helpers.py:slogdet_hessenberg"]}
{"id": "C72", "title": "QR solver", "statement": "QR(A).solve/solve_adj solve Ax=b and A^T x=b; det/det_sign are the determinant and its sign (for a wide matrix: of the matrix without its last pivot column); null() returns right and left null vectors up to |R[-1,-1]|; particular/particular_adj solve consistent singular systems up to tol and raise otherwise; so QR is a valid solver object for the bordered solver.", "quantifier": "all matrices with a pivoted QR factorisation of rank defect at most one, all right-hand sides", "why_tests_cant": "Real inputs form a continuum and matrices have arbitrary size; a test samples finitely many of them.", "anchors": ["funpy/linalg/qr_solve.py:QR"]}
{"id": "C73", "title": "QR/Cholesky pseudo-inverse", "statement": "QRCholesky.solve returns the minimum-norm least-squares solution for rank deficient A; tangent_vector is a unit kernel vector; detH is the determinant without the last column; the rank test does not depend on scaling.", "quantifier": "all matrices, ranks and right-hand sides", "why_tests_cant": "Real inputs form a continuum and matrices have arbitrary size; a test samples finitely many of them.", "anchors": ["funpy/linalg/qr_chol.py:QRCholesky"]}
{"id": "C74", "title": "LU with complete pivoting", "statement": "lucp(A) returns triangular L, U and permutations p, q with L U = A[p][:,q] up to the tolerance, with multipliers bounded by one.", "quantifier": "all n x m matrices, all tolerances", "why_tests_cant": "Real inputs form a continuum and matrices have arbitrary size; a test samples finitely many of them.", "anchors": ["funpy/linalg/lucp.py:lucp"]}
{"id": "C75", "title": "Null vector", "statement": "null_vector(A) returns a nonzero vector with A phi = 0 when A has a one-dimensional null space.", "quantifier": "all singular square matrices of rank n-1", "why_tests_cant": "Real inputs form a continuum and matrices have arbitrary size; a test samples finitely many of them.", "anchors": ["funpy/linalg/nullspace.py:null_vector"]}
{"id": "C76", "title": "Fold system solver", "statement": "FoldSolver.solve / solve_adj solve the bordered fold system.", "quantifier": "all operators and right-hand sides", "why_tests_cant": "Real inputs form a continuum and matrices have arbitrary size; a test samples finitely many of them.", "anchors": ["funpy/linalg/fold_solve.py:FoldSolver"]}
{"id": "C77", "title": "In-place arithmetic and out=", "statement": "Arithmetic with an out argument (including f += g, f *= g, f /= s, f += s) stores in the target the value the operation has without it; the operands represent the same functions afterwards.", "quantifier": "all functions, numbers and targets", "why_tests_cant": "Real inputs form a continuum, coefficient arrays have arbitrary length and names are arbitrary strings; a test samples finitely many of them.", "anchors": ["funpy/cheb/ufuncs.pyx:add,multiply,true_divide,negative"]}
{"id": "C78", "title": "Parameter environment of states", "statement": "Changing the free parameters of a state (from_state) keeps the values of all other parameters and sets the new ones; arithmetic keeps the non-free parameters; no parameter is both free and fixed; states do not share their parameter dictionary.", "quantifier": "all states, all parameter names and values", "why_tests_cant": "Real inputs form a continuum, coefficient arrays have arbitrary length and names are arbitrary strings; a test samples finitely many of them.", "anchors": ["funpy/vectorspaces/base_state.py:sync_ns,items", "funpy/vectorspaces/cont_state.py:from_state", "funpy/vectorspaces/tp_cont_state.py", "funpy/vectorspaces/namespace.py"]}
{"id": "C79", "title": "State HDF5 round trip", "statement": "A continuation state read back from an HDF5 file equals the one written.", "quantifier": "all continuation states", "why_tests_cant": "Real inputs form a continuum, coefficient arrays have arbitrary length and names are arbitrary strings; a test samples finitely many of them.", "anchors": ["funpy/vectorspaces/cont_state.py:from_hdf5", "funpy/vectorspaces/base_state.py:writeHDF5", "funpy/vectorspaces/namespace.py"]}
{"id": "C80", "title": "Moore-Penrose states", "statement": "Arithmetic on Moore-Penrose states acts on the main state as ordinary state arithmetic and keeps the tangent a unit vector; inner products only involve the main states.", "quantifier": "all Moore-Penrose states", "why_tests_cant": "Real inputs form a continuum, coefficient arrays have arbitrary length and names are arbitrary strings; a test samples finitely many of them.", "anchors": ["funpy/vectorspaces/mp_state.py"]}
{"id": "C81", "title": "Quasi-Newton steps satisfy the secant condition", "statement": "The corrections added by the error-oriented quasi-Newton iteration are -H F(x) for Broyden-updated inverse Jacobians H that satisfy the secant condition along the path, and success means the last correction met the tolerance.", "quantifier": "all residuals, all additive linear solvers, all starting points, any number of steps", "why_tests_cant": "Solver behaviours are arbitrary functions and histories are unbounded; a test samples finitely many of them.", "anchors": ["funpy/newton/qnerr.py"]}
{"id": "C82", "title": "NewtonSeeker learns what it finds", "statement": "The solution seeker returns what its nonlinear solver returned, and adds the solution to the deflated ones exactly if it was found and learning is on, for every solver method it accepts.", "quantifier": "all solver behaviours and known-solution lists", "why_tests_cant": "Solver behaviours are arbitrary functions and histories are unbounded; a test samples finitely many of them.", "anchors": ["funpy/newton/newton_seeker.py"]}
{"id": "C83", "title": "Iterative linear solver", "statement": "gbit stops after at most max_iter+1 iterations whatever the operators do, reports success only with an error estimate within the tolerance and within the iteration limit, follows the good Broyden iteration with its secant condition, and with an exact preconditioner returns the exact solution at once.", "quantifier": "all operators, preconditioners, right hand sides, initial guesses and options", "why_tests_cant": "Solver behaviours are arbitrary functions and histories are unbounded; a test samples finitely many of them.", "anchors": ["funpy/linalg/gbit.py"]}
{"id": "C84", "title": "L2 and Chebyshev weighted norms", "statement": "normh(f) is the L2 norm of the function over its domain (summed over columns), the weighted 2-norm is the Chebyshev weighted L2 norm, both are definite and bound the inner product (Cauchy-Schwarz); non-positive indices and weighted norms with p other than 2 are rejected.", "quantifier": "all proper functions, domains, indices", "why_tests_cant": "Real coefficients form a continuum and series have arbitrary length; a test samples finitely many of them.", "anchors": ["funpy/fun.py:norm", "funpy/fun.py:normh", "funpy/fun.py:norm2"]}
{"id": "C85", "title": "p-norms", "statement": "norm(f, p) is (sum over columns of the integral of |f|^p)^(1/p) up to the chopping tolerance, for every p >= 1.", "quantifier": "all proper functions and integer indices p", "why_tests_cant": "Real coefficients form a continuum and series have arbitrary length; a test samples finitely many of them.", "anchors": ["funpy/fun.py:norm", "funpy/cheb/ufuncs.pyx:power", "funpy/cheb/ufuncs.pyx:absolute"]}
{"id": "C86", "title": "Minimum, maximum and inf-norm", "statement": "minandmax(f) returns for every column the global minimum and maximum over the domain with points of the domain where they are attained, and norm(f, inf) is the largest absolute value of any column.", "quantifier": "all proper functions and domains, any eigenvalue solver", "why_tests_cant": "Real coefficients form a continuum and series have arbitrary length; a test samples finitely many of them.", "anchors": ["funpy/fun.py:minandmax", "funpy/cheb/chebtech.py:minandmax", "funpy/fun.py:norm"]}
{"id": "C87", "title": "Functions built from callables approximate them", "statement": "Fun(op=callables, domain=[a,b], eps=eps) succeeds for callables bounded on the domain, gives one column per callable, and each column is within the chopping tolerance plus (2N+1) times the best degree-(N-1) polynomial approximation error of the callable on the whole domain, N being the number of samples used; polynomials of degree at most 16 are reproduced up to the chopping tolerance.", "quantifier": "all bounded callables, domains and tolerances", "why_tests_cant": "Real coefficients form a continuum and series have arbitrary length; a test samples finitely many of them.", "anchors": ["funpy/fun.py:Fun.__init__", "funpy/cheb/chebtech.py:chebtech", "funpy/cheb/refine.py"]}
{"id": "C88", "title": "Pointwise ufuncs", "statement": "np.ufunc(f) (and binary ufuncs of two functions) without special implementation is the pointwise image of the function: same domain and columns, equal to phi(f(x)) up to the chopping tolerance and near-best approximation error on the whole domain.", "quantifier": "all bounded functions phi, all proper functions, domains", "why_tests_cant": "Real coefficients form a continuum and series have arbitrary length; a test samples finitely many of them.", "anchors": ["funpy/fun.py:__array_ufunc__", "funpy/cheb/chebtech.py:__array_ufunc__", "funpy/cheb/chebtech.py:compose"]}
{"id": "C89", "title": "fun.compose is pointwise composition", "statement": "fun.compose(f, op) is x -> op(f(x)) and fun.compose(f, op, g) is x -> op(f(x), g(x)) on the domain of f, up to the chopping tolerance and near-best approximation error.", "quantifier": "all functions, domains, operators op bounded on the range", "why_tests_cant": "Real coefficients form a continuum and series have arbitrary length; a test samples finitely many of them.", "anchors": ["funpy/fun.py:compose"]}
{"id": "C90", "title": "chebtech compose is pointwise composition and does not change its argument", "statement": "chebtech.compose(f, op) is y -> op(f(y)) and compose(f, op, g) is y -> op(f(y), g(y)) on [-1,1] up to the chopping tolerance and near-best approximation error, for series of any length, and leaves f and g unchanged.", "quantifier": "all series, operators op bounded on the range", "why_tests_cant": "Real coefficients form a continuum and series have arbitrary length; a test samples finitely many of them.", "anchors": ["funpy/cheb/chebtech.py:compose"]}
{"id": "C91", "title": "Restriction to subintervals", "statement": "f.restrict([a,b]) for -1 <= a < b <= 1 is exactly t -> f((1-t)a/2+(1+t)b/2), with the same number of columns and coefficients; invalid intervals are rejected; several break points give the pieces.", "quantifier": "all series, all break points", "why_tests_cant": "Real coefficients form a continuum and series have arbitrary length; a test samples finitely many of them.", "anchors": ["funpy/cheb/chebtech.py:restrict"]}
{"id": "C92", "title": "Functionals are integrals", "statement": "np.dot(Functional(f), g) is the integral of f*g over the domain summed over the columns (weighted: the Chebyshev weighted integral).", "quantifier": "all functions f and g, domains, numbers of coefficients", "why_tests_cant": "Real coefficients form a continuum and series have arbitrary length; a test samples finitely many of them.", "anchors": ["funpy/functional.py:Functional"]}
{"id": "C93", "title": "QR of a quasimatrix", "statement": "qr(f) of an array-valued function returns Q with L2-orthonormal columns on the same domain and an upper triangular R with nonnegative diagonal such that f = Q R up to the requested tolerance.", "quantifier": "all array-valued functions with any number of coefficients and columns, all domains, all tolerances", "why_tests_cant": "Real coefficients form a continuum, degree and number of columns are unbounded; a test samples finitely many.", "anchors": ["funpy/qr.py:abstractQR", "funpy/cheb/qr.py:qr", "funpy/cheb/chebtech.py:chebtech.qr", "funpy/fun.py:qr"]}
{"id": "C94", "title": "Fourier spectral discretisation applies the operator", "statement": "For a periodic problem, the matrix that the trigspec discretisation assembles for a linear operator sum a_j u^(j) + c int(u) + sum b_j (A u)^(j) (A the aggregation operator with sensing radius one), applied to the Fourier coefficients of u, gives exactly those Fourier coefficients of the operator applied to u that the discretisation keeps; dropping tiny entries changes this by at most eps times the l1 norm of the coefficients.", "quantifier": "all odd numbers of modes, all intervals, all coefficient functions of any length (shorter or longer than the discretisation), all operator orders, all u", "why_tests_cant": "Sample operators test finitely many sizes, bandwidths (sparse and dense Toeplitz branches, padding and truncation) and derivative orders; the claim ranges over all of them.", "anchors": ["funpy/colloc/trigspec/matrices.py: diffmat, multmat, intmat, aggmat", "funpy/colloc/trigspec/trigspec.py: trigspec.quasi2diffmat", "funpy/colloc/ultraS/transform.py: sptoeplitz"]}
{"id": "C96", "title": "Collocation objects differentiate and evaluate exactly", "statement": "A chebcolloc2 object holding the values of polynomials of degree below its number of points at its points: np.diff of any order gives the values of the derivatives at the points, calling it at any location of the domain (a node or not) gives the values of the polynomials there, and calling it outside the domain raises.", "quantifier": "all numbers of points >= 2, all nondegenerate domains, all polynomials of admissible degree, all numbers of columns, all derivative orders, all evaluation points", "why_tests_cant": "Only finitely many sizes, orders, intervals and points can be sampled; the differentiation matrices are built by a recursion in the order with trigonometric tricks, so each order is a new code path.", "anchors": ["funpy/colloc/chebcolloc/chebcolloc2.py: chebcolloc2.__call__, diff_chebcolloc2, diffmat", "funpy/colloc/valsDiscretization.py: valsDiscretization"]}
{"id": "C97", "title": "Boundary rows represent the boundary conditions", "statement": "The row which a coefficient discretisation assembles for a boundary condition (any affine combination of values and derivatives of the unknown at points of the domain) has one entry per coefficient, and its product with the coefficients of any function equals the linear part of the condition at that function; hence a Newton correction solving row*d = -residual makes the new iterate satisfy the condition exactly. Conditions evaluating the unknown outside the domain, and conditions not mentioning it, are rejected.", "quantifier": "all boundary-condition expressions of any size, all domains, all numbers of coefficients >= 2, all functions", "why_tests_cant": "The conditions are user programs; tests can only try finitely many of these and the row is obtained by running the condition on an identity collocation object and converting to coefficients.", "anchors": ["funpy/colloc/chebOpConstraint.py: ChebOpConstraint", "funpy/colloc/coeffsDiscretization.py: coeffsDiscretization.getConstraints", "funpy/colloc/source/BoundaryConditionSource.py"]}
{"id": "C98", "title": "The discretised boundary value problem is the boundary value problem", "statement": "For a scalar linear boundary value problem the ultraspherical matrix with boundary rows is square exactly when there are as many conditions as the projection order. If x solves the discretised system then the function with coefficients x satisfies all boundary conditions exactly and the residual of the equation only contains the ultraspherical polynomials of the projected-out degrees; conversely every polynomial solution of the boundary value problem that fits in the discretisation solves the system. A Newton step makes all affine boundary conditions hold exactly.", "quantifier": "all numbers of coefficients >= 2, all domains, all linear operators with local and nonlocal terms whose products fit, all lists of boundary conditions, all right-hand sides", "why_tests_cant": "A solve on sample problems compares with a known solution up to a tolerance; that the algebraic system is equivalent to the problem for all operators and conditions needs a proof.", "anchors": ["funpy/colloc/OpDiscretization.py: OpDiscretization.matrix", "funpy/colloc/ultraS/ultraS.py: ultraS.quasi2diffmat, project_vector", "funpy/colloc/ultraS/matrices.py: delete_rows, reduceOne", "funpy/colloc/coeffsDiscretization.py: getConstraints"]}
{"id": "C100", "title": "Adaptive solver: grids, stopping and honest success", "statement": "SolverAdaptive.solve tries the strictly increasing sizes 1+2^k clipped between the length of the given state and the upper bound, starting each Newton solve from the last successful result; it stops at the first grid whose result agrees with its starting state to within eps (not on the first grid), after max_fail_steps failures without any success, or when the grids are exhausted. If it reports success then the last Newton solve succeeded and the returned state is its result or differs from it by less than eps. If nothing succeeds exactly min(max_fail_steps, number of grids) solves are made.", "quantifier": "all nonlinear solvers (arbitrary success/failure pattern, results and in-place updates), all initial states, bounds, tolerances and step limits", "why_tests_cant": "The behaviour depends on the whole success/failure history of the inner solver; tests see a handful of histories.", "anchors": ["funpy/colloc/adapt.py: SolverAdaptive.n_disc, SolverAdaptive.solve", "funpy/colloc/tools.py: findNextPowerOf2", "funpy/newton/newton_standard.py"]}
{"id": "C103", "title": "Linearize: the linearised operator is the derivative of the operator", "statement": "For every equation built from x, numbers, the unknown functions and their derivatives, sums, products, powers, smooth elementary functions, compound derivatives and integrals over the domain, the linearisation produced by compiling it (coefficients of p, p', ... and the nonlocal terms c * integral of d*p) applied to any smooth p at any smooth state u equals the derivative of the operator at u in direction p.", "quantifier": "every operator expression, every unknown function index, every smooth state and perturbation, every domain and every point; every value-preserving behaviour of sympy's expand", "why_tests_cant": "The claim is about all expressions a user can write; tests compile a few model equations, all of them local with the highest derivative on the diagonal.", "anchors": ["funpy/colloc/source/compiler.py:linearize", "funpy/colloc/source/compiler.py:get_diff_order", "funpy/colloc/source/compiler.py:compile"]}
{"id": "C101", "title": "Eigenvalues: what eigs returns are eigenvalues of the operator with its boundary conditions", "statement": "Every value returned by a successful eigs(op) has a nonzero function with n coefficients that satisfies the homogeneous boundary conditions and L u = lambda u up to the r highest ultraspherical degrees that the discretisation projects out; conversely an exact polynomial eigenpair is returned unless its QZ weight is below the tolerance; a wrong number of boundary conditions is reported as failure.", "quantifier": "every scalar linear operator, domain, boundary conditions, number of coefficients, tolerance, and every QZ decomposition the library may return", "why_tests_cant": "A test computes the spectrum of one operator at one resolution and compares a few numbers.", "anchors": ["funpy/colloc/eig.py:eigs", "funpy/colloc/eig.py:GeneralizedEigenvalueOp"]}
{"id": "C105", "title": "Fourier collocation matrices differentiate periodic interpolants", "statement": "For every number n >= 2 of equispaced points of [-1,1), even or odd, trigcolloc's diffmat(n, m) with m = 0, 1, 2 applied to arbitrary values returns the values of the m-th derivative of the unique Fourier series with n coefficients through them. For m = 3 it returns minus the third derivative. No matrix exists for m >= 4.", "quantifier": "every n >= 2, every vector of values (every Fourier series with n coefficients), every order m", "why_tests_cant": "the entries are closed trigonometric forms, different for even and odd n; exactness for all n needs the summation of k^m exp(ikx), not sampled sizes", "anchors": ["funpy/colloc/trigcolloc/matrices.py: diffmat"]}
{"id": "C95", "title": "Sums, negatives and differences of linear operators", "statement": "The sum of two discretisable linear operators with equally many derivative terms, at most one of which has integral terms, acts on every function as the sum of the two, and its flags stay truthful; negation and subtraction do the same for operators without integral terms.", "quantifier": "every pair of operator blocks (any order, any coefficient functions, any flags), every function u and point", "why_tests_cant": "the operators act on all smooth functions; a test applies them to a few", "anchors": ["funpy/colloc/quasiOp.py: QuasiOp", "funpy/colloc/quasiOpBlock.py: QuasiOpBlock.__neg__, __add__, __sub__, __mul__", "funpy/colloc/LinSys.py: LinSys.quasi"]}
{"id": "C106", "title": "Iterating over the columns of functions and states", "statement": "A for loop over a function (or a state) runs its body exactly once for each column, in order, whatever iterations are in progress elsewhere, and ends; list(f), unpacking *f, nested loops and zip see every column (pair).", "quantifier": "all functions and states with any number of columns, all loop bodies, all histories of earlier or enclosing iterations", "why_tests_cant": "the position of an iteration is stored in the object, so the outcome depends on the history of all other iterations over the same object; the failing cases include loops that never end", "anchors": ["funpy/fun.py: Fun.__iter__, Fun.__next__, Fun.__getitem__", "funpy/trig/trigtech.py: __iter__, __next__", "funpy/vectorspaces/base_state.py: BaseState.__iter__, __next__, __getitem__, columns"]}
{"id": "C99", "title": "Evaluating an operator on a function", "statement": "op(u) is the function whose i-th column is the value F_i(u) of the i-th equation (with the parameters of the namespace), on the domain of u; it raises if there are more equations than columns; the result agrees with F_i(u) exactly when F_i(u) needs no more coefficients than u, and otherwise differs from it by at most the sum of the absolute values of the dropped coefficients. Arithmetic of residuals (r+s, r-s, -r, r*c, c*r) is entrywise and keeps the residual evaluable.", "quantifier": "all equations (arbitrary maps of the columns), all functions, any number of columns, all parameter values, all points of the domain; all residuals and scalars", "why_tests_cant": "the truncation shows only when the value of an equation is longer than its argument; the statement is about every equation and every function", "anchors": ["funpy/colloc/chebOp.py: ChebOp.__call__, residual", "funpy/colloc/LinSys.py, LinSysBase.py: LinSys.update_partial, setDisc, setParameters", "funpy/colloc/rhs.py: Residual.update, values, __add__, __sub__, __neg__, __mul__, __rmul__"]}
{"id": "C104", "title": "The life of an operator object", "statement": "Whatever sequence of assignments, compilations, discretisations and evaluations an operator goes through: code is generated at most twice; evaluating an operator that was never compiled raises; every evaluation uses the current equations, constraints and boundary conditions and the current parameter values (those of the state it is given, else those last set); evaluating twice with the same argument gives the same answer.", "quantifier": "all operators, all finite histories of events (assigning equations / parameters / continuation parameters, set_disc, compile, discretize, op(u), residual(u))", "why_tests_cant": "the behaviour depends on the whole history of the object", "anchors": ["funpy/colloc/chebOp.py: ChebOp.__init__, eqn.setter, compile, discretize, set_disc, __call__, residual", "funpy/colloc/LinSys.py, LinSysBase.py: setParameters, update_partial"]}
{"id": "C107", "title": "Bordered systems with a QR factorisation (BMatrix)", "statement": "BMatrix(A, b, c, d): mat is [A c; b d] and _matvec multiplies with it; solve(g) solves mat x = g whether A is regular or has rank defect one; if A is flagged singular without being so, the result is the exact solution for a matrix A' that differs from A by less than tol in every entry; solve_null() solves mat x = (0, 1).", "quantifier": "all sizes, all matrices, borders, right-hand sides and tolerances; all outputs of the pivoted QR factorisation that satisfy LAPACK's specification", "why_tests_cant": "all sizes and all matrices, including every near-singular one", "anchors": ["funpy/linalg/brd_solve.py: BMatrix.__init__, mat, _matvec, null, part, solve_singular, solve_nonsingular, solve_null_singular, solve_null_nonsingular"]}
{"id": "C108", "title": "Bordered systems with an LU factorisation", "statement": "solve(A,b,c,d,f) solves [A c; b d] x = f for regular A and regular bordered matrix; brd_null and brd_null_simp return the solution for the right-hand side (0,1) (and brd_null also that of the transposed system), whether A is regular or has rank defect one.", "quantifier": "all sizes, all matrices over an ordered field, all borders and right-hand sides, all pivot orders", "why_tests_cant": "the pivot order depends on the matrix; a wrong permutation convention is invisible for all matrices whose pivots are involutions", "anchors": ["funpy/linalg/brd_solve.py: permutation, solve, solve_nonsing, solve_sing, solve_null_nonsing, LUCP, nullvector, brd_null_simp, brd_null"]}
{"id": "C109", "title": "Adaptive construction of periodic functions", "statement": "trigtech(f) (Fun(op=f, type='trig')) terminates for every callable; the samples are f at equispaced points with the mean of the end values at -1; the grid size is one of 8, 16, 32, ... at most 4096; the result is a symmetric Fourier partial sum of the interpolant, every dropped mode is at most the cube root of the tolerance, and for real f evaluation is real and within n*eps^(1/3) of the interpolant; real trigonometric polynomials of degree below 16 are recovered to 2M*eps^(1/3); a construction that never becomes happy leaves the interpolant on the largest grid.", "quantifier": "all callables (every complex function of a real variable, any positive number of components), both refinement strategies, all tolerances in (0,1)", "why_tests_cant": "the callable ranges over all functions, and the number of refinement rounds depends on it", "anchors": ["funpy/trig/refine.py: RefineBase.get_n, Refine.__resample, Refine.__nested", "funpy/trig/trigtech.py: __init__, happy, __check_callable, populate, simplify"]}
{"id": "C110", "title": "Second derivatives and parameter derivatives of operators", "statement": "compile(fold=True) of an operator with local equations and constraints produces, for every component, the action of the first derivative in the direction u_p, of the second derivative in the directions u_p and u_pp, and of the mixed derivative with respect to a parameter and u_p; compile(par=True) produces the derivative of the equations with respect to a parameter; the adjoint form is the L2 adjoint of the second derivative.", "quantifier": "all systems of smooth local expressions of any order and size, all smooth functions and directions, all points, and every behaviour of sympy's expand that keeps values, orders and symbols", "why_tests_cant": "the equations are arbitrary expressions and the functions range over all smooth functions", "anchors": ["funpy/colloc/source/compiler.py: compile, compile_fold, bilinear, bilinear_dp, compile_dp", "funpy/colloc/source/OperatorSource.py: expr, action, biaction, transpose", "funpy/colloc/source/DiffOperatorSource.py: expr", "funpy/colloc/source/OperatorSourceBlock.py: expr", "funpy/colloc/source/IntegralOperatorSource.py: expr", "funpy/colloc/pDerivative.py: DerivativeFunctional.__call__", "funpy/colloc/linearFunctional.py: __call__"]}
{"id": "C111", "title": "Riesz functionals of Sobolev spaces", "statement": "Functional(f, basis, order=k) applied to a function u gives the H^k inner product: the sum over o <= k of the integrals of conj(f^(o)) u^(o) over the domain, summed over the components; it can be applied to the vector of coefficients of u with the same result.", "quantifier": "all discretised periodic functions f, u (any number of components and coefficients, any domain), all orders k, all four bases", "why_tests_cant": "functions, orders, domains and sizes are unbounded", "anchors": ["funpy/support/Functional.py: Functional.__init__, __call__"]}
{"id": "C112", "title": "Generated code binds every block and equation to its own coefficient", "statement": "Building an operator from its symbolic form emits Python text whose execution always succeeds and which leaves for every block exactly the handles of that block: entry k of the derivative list evaluates the coefficient of order k, the k-th integral coefficient and integrand those of the k-th integral term, the info list tells which are not zero; the k-th residual function evaluates equation k; other names of the namespace keep their value.", "quantifier": "all systems of blocks with any number of terms, orders in any sequence, all coefficient texts without line breaks, all earlier contents of the shared namespace", "why_tests_cant": "the generated text depends on the number of blocks, orders, and on the earlier contents of the namespace; index collisions show only for particular shapes", "anchors": ["funpy/colloc/source/gen.py: CodeGeneratorBackend", "funpy/colloc/source/DiffOperatorSource.py: emit", "funpy/colloc/source/IntegralOperatorSource.py: emit", "funpy/colloc/source/OperatorSourceBlock.py: emit, posInfo, finish", "funpy/colloc/linOp.py: build", "funpy/colloc/linBlock.py: build", "funpy/colloc/rhs.py: Residual.build", "funpy/colloc/LinSys.py: build"]}
{"id": "C113", "title": "Printed code computes the expression", "statement": "The Python code printed for an equation or for a coefficient of its linearisation, called with the unknown functions, evaluates without error to the value of the expression: unknowns and constant functions by their names, derivatives of any order, integrals over the domain as numbers, elementary functions pointwise, parameters by name.", "quantifier": "all expressions in x, numbers, parameters, unknowns, constant functions, elementary functions, derivatives and integrals, of any depth; all functions; both settings of the printer; every table of known functions of sympy", "why_tests_cant": "expressions are arbitrary trees and the functions range over all functions", "anchors": ["funpy/cbcode.py: FunPyPrinter._print_Function, _print_Derivative, _print_Integral, cpcode", "funpy/colloc/source/NonlinearOperatorSource.py: emit_detail", "funpy/colloc/source/DiffOperatorSource.py: emit", "funpy/colloc/source/compiler.py: __emit_common"]}
{"id": "C114", "title": "Newton.solve: choice of the method and local convergence", "statement": "Newton.solve runs the method its name selects (lu, qnerr, nleq / nleq-err, giant, in any capitalisation) and, for lu, qnerr (contraction bound at least 1/16) and the damped Newton method with or without quasi-Newton steps, started close enough to a regular zero and allowed enough iterations, reports success and returns a point within the tolerance of the zero; the neighbourhood does not depend on the tolerance.", "quantifier": "all problems in real inner product spaces of any dimension, all regular zeros, all tolerances, all options (contraction bound, restricted damping, quasi-Newton steps), all starting points in the neighbourhood, all iteration limits above a bound depending on the tolerance", "why_tests_cant": "problems, zeros, tolerances and starting points range over infinite sets", "anchors": ["funpy/newton/newton.py: Newton.solve", "funpy/newton/NewtonSystem.py: NewtonSystem", "funpy/newton/newton_standard.py: newton_standard", "funpy/newton/nleq_err.py: nleq_err", "funpy/newton/qnerr.py: qnerr", "funpy/linalg/exact_linear_solver.py: ExactLinearSolver"]}
{"id": "C115", "title": "Discretisation of systems", "statement": "For a system of m equations for m unknowns the discretisation matrix applied to the stacked coefficients of u_1,…,u_m gives the stacked coefficients of sum_j L_ij u_j (Fourier, up to entries below the drop tolerance); on an interval a solution of the discretised system with right-hand side project_vector(f) satisfies every equation up to ultraspherical polynomials of index >= n - r, and polynomials satisfying all equations solve the discretised system.", "quantifier": "all numbers of unknowns, all numbers of coefficients, all operators with variable coefficients and integral terms whose products fit, all right-hand sides", "why_tests_cant": "the numbers of unknowns and coefficients and all operators are unbounded", "anchors": ["funpy/colloc/OpDiscretization.py: OpDiscretization.matrix", "funpy/colloc/coeffsDiscretization.py: coeffsDiscretization.instantiate", "funpy/colloc/trigspec/trigspec.py: trigspec.reduce", "funpy/colloc/trigspec/matrices.py: blockmat", "funpy/colloc/ultraS/ultraS.py: ultraS.reduce, project_vector", "funpy/colloc/ultraS/matrices.py: reduceOne", "funpy/colloc/LinSys.py: LinSys.build", "funpy/colloc/chebOpConstraint.py: ChebOpConstraint.__init__"]}
{"id": "C116", "title": "Copies and files of operators", "statement": "copy.deepcopy of a ChebOp, and reading back what writeHDF5 wrote, give an operator that poses the same problem (unknowns, constant functions, non-local operators, kernels, parameters, domain, equations, constraints, boundary conditions) with the same numerical options and discretisation.", "quantifier": "all operators, all attribute values, all lengths of lists and texts", "why_tests_cant": "attribute values, numbers of equations and lengths of texts are unbounded", "anchors": ["funpy/colloc/chebOp.py: ChebOp.__init__, ChebOp.__deepcopy__, ChebOp.writeHDF5, ChebOp.readHDF5"]}
{"id": "C117", "title": "The discretisation belongs to the current problem", "statement": "Whatever sequence of compile, setDisc and discretize calls was made before, discretize returns a system for the operator's equations, differentiable with respect to its continuation parameters, with the number of coefficients asked for last (at least n_min).", "quantifier": "all histories of calls of any length, all operators, parameters and sizes", "why_tests_cant": "histories are unbounded", "anchors": ["funpy/colloc/chebOp.py: ChebOp.compile, ChebOp.setDisc, ChebOp.discretize, ChebOp.discretize_system, ChebOp.biLinSys, ChebOp.mooreSys", "funpy/colloc/source/compiler.py: Source.compile", "funpy/colloc/LinSys.py: LinSys.build", "funpy/colloc/pDerivative.py: DerivativeFunctional.build", "funpy/colloc/BiLinSys.py: BiLinSys.build"]}
{"id": "C102", "title": "Boundary entries of stacked vectors", "statement": "For a vector that stacks n_eqn blocks of n entries, remove_bc drops the first bw entries of every block, get_bc returns them, replace_bc moves every block up by bw entries and pads with zeros; get_bc and remove_bc together lose nothing.", "quantifier": "all numbers and lengths of blocks, all bandwidths up to the block length, all contents, whatever the uninitialised output array held", "why_tests_cant": "block counts, lengths and contents are unbounded", "anchors": ["funpy/colloc/tools.py: remove_bc, replace_bc, get_bc"]}
{"id": "C118", "title": "The QR factorisation and the number of its reflections", "statement": "For every real matrix qr(A) / QR(A) / QRCholesky(A) hold an orthogonal Q, an upper triangular R and a permutation with A[:, C] = QR; the counted number k satisfies det Q = (-1)^k; with column pivoting the diagonal of R decreases and has exactly rank(A) nonzero entries, which come first.  Hence det, det_sign, solve, solve_adj are right for every real matrix.", "quantifier": "all real matrices of all shapes, all legal pivot choices", "why_tests_cant": "matrices form a continuum and have unbounded size", "anchors": ["funpy/linalg/qr.py: qr", "funpy/linalg/qr_solve.py: QR.__init__, det, det_sign, solve, solve_adj", "funpy/linalg/qr_chol.py: QRCholesky.__init__, solve_singular_dense"]}
{"id": "C119", "title": "Reflection tiles the unit interval", "statement": "Reflection(f)(x, n) shows f on n tiles of [0,1], neighbouring tiles being mirror images, for every domain of f and every point.", "quantifier": "all functions, numbers of tiles, points", "why_tests_cant": "points and functions form a continuum", "anchors": ["funpy/support/reflection.py: Reflection"]}
{"id": "C120", "title": "The Newton matrix is the derivative of the equation", "statement": "For a scalar nonlinear differential equation a(u)=0, the block compiled from its symbolic linearisation can be evaluated at the current iterate, and the operator that is discretised from it is, for every smooth direction p, the directional derivative of a at u in direction p, up to the errors of the compiled coefficient functions and of their simplification, sum_k (delta_k + dropped_k eps^(1/3)) |p^(k)|.  A solution of the assembled system with minus the residual on the right gives a correction p for which u+p satisfies the boundary conditions exactly and a(u)+a'(u)p vanishes up to these errors and the highest ultraspherical modes.", "quantifier": "all equations, iterates, directions, points of the interval, numbers of coefficients, simplification tolerances", "why_tests_cant": "equations, iterates and directions are unbounded; a test only samples a few directions", "anchors": ["funpy/colloc/linBlock.py: LinBlock.quasi, build", "funpy/colloc/linOp.py: LinOp.quasi", "funpy/colloc/ultraS/ultraS.py: quasi2diffmat", "funpy/colloc/chebOp.py: discretize_system", "funpy/cheb/chebtech.py: simplify"]}
{"id": "C121", "title": "Variable coefficients: the assembled operator when products do not fit", "statement": "For a linear operator of order at most r whose coefficients have at most n coefficients (and exact multiplication matrices), the assembled matrix applied to any u with n coefficients gives L u up to a combination of the C^(r)_k with k >= n-2r.  So solutions of the discretised problem satisfy the boundary conditions exactly and have residual L u - f only in these modes, and the values returned by eigs belong to functions with L u - lambda u in these modes.  The bound cannot be improved to n-r.", "quantifier": "all operators, intervals, numbers of coefficients, orders, all functions u with n coefficients whatever their degree, all right-hand sides", "why_tests_cant": "operators and functions are unbounded families; a test cannot see which modes are free of errors for all of them", "anchors": ["funpy/colloc/ultraS/matrices.py: multmat, convertmat", "funpy/colloc/ultraS/transform.py: spconvert, sptoeplitz_fast, sphankel", "funpy/colloc/ultraS/ultraS.py: quasi2diffmat", "funpy/colloc/OpDiscretization.py: matrix", "funpy/colloc/chebOp.py: eigs"]}
{"id": "C122", "title": "The trigonometric differentiation matrix", "statement": "For n>=1 equispaced points and every derivative order k, the matrix returned by the trigonometric diffmat maps the values of every Fourier series with n coefficients to the values of its k-th derivative at the same points, and so maps arbitrary values to the derivative values of their unique trigonometric interpolant, when n is odd, k <= 2 or k is odd.", "quantifier": "all numbers of points, all derivative orders, all vectors of values", "why_tests_cant": "points, orders and values are unbounded; the existing tests do not call the function, and a failure only shows for one mode and some orders", "anchors": ["funpy/trig/trigtech.py: diffmat"]}
{"id": "C123", "title": "Newton's methods solve linear problems in two iterations from every start", "statement": "For a regular linear problem A x = b (residual A x - b, linear solver exact), Newton.solve with method lu, qnerr, nleq or nleq-err reports success from every starting point with the exact solution after at most two iterations, for all tolerances, with or without restricted damping and quasi-Newton steps, and for every admissible starting damping factor.  For the ultraspherical discretisation of a linear boundary value problem the result satisfies the boundary conditions exactly and its residual only contains the highest modes.", "quantifier": "all linear problems in all (also infinite-dimensional) spaces, all starting points, inner products, tolerances, damping factors", "why_tests_cant": "starting points, problems and damping factors are unbounded", "anchors": ["funpy/newton/newton.py: Newton.solve", "funpy/newton/newton_standard.py", "funpy/newton/qnerr.py", "funpy/newton/nleq_err.py", "funpy/newton/NewtonSystem.py"]}
{"id": "C124", "title": "The discretised problem a u^(r) = f is well posed", "statement": "For a constant a != 0 and r boundary conditions, the assembled ultraspherical matrix of a u^(r) = f is regular for every number n >= max(2,r) of coefficients exactly if the conditions determine the polynomials of degree < r.  Then the discretised problem has exactly one solution for all boundary values and right-hand sides; it satisfies the conditions exactly, and the equation exactly if f has at most n-r coefficients.  The Dirichlet problem is an instance.", "quantifier": "all orders, intervals, constants, conditions, numbers of coefficients, boundary values, right-hand sides", "why_tests_cant": "a test can only check that the matrix is regular for a few sizes and conditions", "anchors": ["funpy/colloc/OpDiscretization.py: matrix", "funpy/colloc/ultraS/ultraS.py: quasi2diffmat, project_vector", "funpy/colloc/ultraS/matrices.py: diffmat, convertmat", "funpy/colloc/coeffsDiscretization.py: getConstraints"]}
{"id": "C125", "title": "Non-local operator of a periodic function", "statement": "If the coefficients of a periodic function g are the Fourier coefficients of an integration kernel w on [-1, 1], adhesion(f, g)(x) = int_{-1}^{1} f(x + r) w(r) dr for every periodic f with fewer coefficients than g, or as many if the number is odd; with uniform_kernel(n, domain) this is half the integral over [0, 1] of f(x + r) - f(x - r). A kernel with fewer coefficients than f acts on the corresponding partial Fourier sum of f.", "quantifier": "all periodic functions of every length and parity, all domains, all integrable kernels, all kernel lengths, all points", "why_tests_cant": "tests compare a few kernels with closed forms at a fixed length; the identity ranges over all coefficient vectors, domains and kernels", "anchors": ["funpy/fun.py:adhesion", "funpy/trig/operations.py:trig_adhesion", "funpy/colloc/kernels.py:uniform_kernel"]}
{"id": "C126", "title": "The discretisation of a well-posed boundary value problem is eventually regular and spectrally convergent", "statement": "Let the linear operator have order r >= 1, a constant non-zero leading coefficient and polynomial lower coefficients, with r boundary conditions, and let the boundary value problem be well-posed (max|w| <= S max|L w| for smooth w which satisfy the homogeneous conditions). Then for all sufficiently large numbers n of coefficients the assembled matrix is square and the discretised problem has exactly one solution for all boundary values and right-hand sides; the solutions satisfy the boundary conditions exactly, the residual of the differential equation tends to zero uniformly, and the error against the exact solution is at most C/n^t on the whole interval for every power t. The coefficient functions have to be multiplied exactly by the assembled multiplication matrices (C41): from 100 coefficients on this needs a non-zero leading Chebyshev coefficient, and without it the statement is false (C127).", "quantifier": "every such operator, every list of boundary conditions, every right-hand side with finitely many coefficients, all n from some N on, all t, all points of the interval", "why_tests_cant": "a test compares finitely many n for finitely many equations at finitely many points; convergence is a statement about all n and all well-posed problems", "anchors": ["funpy/colloc/ultraS/ultraS.py: quasi2diffmat, project_vector", "funpy/colloc/OpDiscretization.py: matrix", "funpy/colloc/ultraS/matrices.py: diffmat, convertmat, multmat"]}
{"id": "C127", "title": "Uniquely solvable problems are solved by the discretisation", "statement": "If the homogeneous problem (order r, constant leading coefficient, conditions on derivatives of order < r) has only the zero solution then it is well-posed in the sense of C126; hence for every right-hand side with finitely many Chebyshev coefficients and all boundary values a solution u exists, all sufficiently large discretisations have exactly one solution, and it converges to u with all derivatives up to the order r, uniformly and faster than every power of 1/n. Initial value problems of every order and Dirichlet problems c u'' + p u' + q u = f with c q <= 0 are of this kind. Small discretisations of such problems can nevertheless be singular (u' - u with two coefficients). The coefficient functions have to be multiplied exactly by the assembled multiplication matrices (C41). Without this the statement is false: u'' + x u = x^2, u(-1) = -1, u'(-1) = 1 is uniquely solvable by u = x, but no discretisation with 100 or more coefficients has a solution within 1/18 of it.", "quantifier": "every such operator and list of conditions, every right-hand side with finitely many coefficients, all boundary values, all n from some N on", "why_tests_cant": "unique solvability and convergence are statements about all functions and all discretisation sizes", "anchors": ["funpy/colloc/ultraS/ultraS.py: quasi2diffmat, project_vector", "funpy/colloc/OpDiscretization.py: matrix", "funpy/colloc/chebOpConstraint.py: ChebOpConstraint"]}
{"id": "C128", "title": "The Fourier discretisation of a well-posed periodic problem is eventually regular and spectrally convergent", "statement": "Let L be a periodic linear operator of order r >= 1 with constant non-zero leading coefficient, trigonometric polynomials as lower coefficients, possibly an integral term and aggregation terms of lower order, and let the periodic problem be well-posed (max|w| <= S max|L w| for smooth periodic w). Then for all sufficiently large odd numbers n of modes the discretised problem has exactly one solution for every right-hand side, and for a right-hand side with finitely many modes these solutions converge to the smooth periodic solution uniformly, faster than every power of 1/n. Elliptic problems -d u'' + p u' + q u + b0 A u + b1 (A u)' with d > 0, real p and q and q >= q0 > |b0| + 2|b1| are well-posed.", "quantifier": "every such operator, every interval, every right-hand side with finitely many modes, all odd n from some N on, all powers, all points", "why_tests_cant": "convergence and regularity are statements about all n and all well-posed problems; a test compares finitely many n for finitely many equations", "anchors": ["funpy/colloc/trigspec/trigspec.py: quasi2diffmat, diff, int, aggregation, mult", "funpy/colloc/trigspec/matrices.py: diffmat, multmat, intmat, aggmat"]}
{"id": "C129", "title": "Uniquely solvable periodic problems are solved by the Fourier discretisation", "statement": "Let L be a periodic linear operator as in C128 of order r >= 1. If the homogeneous problem L w = 0 has only the zero periodic solution of class C^r then for every right-hand side with finitely many modes there is exactly one periodic solution u, u is smooth, all sufficiently large odd discretisations have exactly one solution, and it converges to u with every derivative, uniformly and faster than every power of 1/n. Elliptic problems with q >= q0 > |b0| + 2|b1| are uniquely solvable. Conversely, if a non-zero trigonometric polynomial solves the homogeneous problem then all sufficiently large odd matrices are singular.", "quantifier": "every such operator, every interval, every right-hand side with finitely many modes, all odd n from some N on, all powers, all derivatives, all points", "why_tests_cant": "unique solvability and convergence are statements about all functions and all discretisation sizes", "anchors": ["funpy/colloc/trigspec/trigspec.py: quasi2diffmat", "funpy/colloc/trigspec/matrices.py: diffmat, multmat, intmat, aggmat"]}
{"id": "C130", "title": "The adjoint discretisation is the adjoint", "statement": "linop() returns the matrix of matrix() together with a matrix that discretises the adjoint of the linear operator: for all u, v whose boundary terms vanish, the integral of v (L u) equals the integral of (L* v) u, including integral terms; the projection returned with it can be applied forwards and adjointly.", "quantifier": "every linear operator of every order with constant or variable coefficients and integral terms, every interval, all pairs of functions", "why_tests_cant": "duality is a statement about all pairs of functions and all coefficient functions; a test checks finitely many pairs", "anchors": ["funpy/colloc/OpDiscretization.py: linop", "funpy/colloc/ultraS/ultraS.py: quasi2diffmat (adjoint=True), reduce", "funpy/colloc/projection.py: RectangularProjection"]}
{"id": "C131", "title": "eigs converges", "statement": "The eigenvalues returned by eigs(L) converge with the number of coefficients: a compact set free of eigenvalues of the boundary value problem contains no returned value for all large n (no spurious eigenvalues); a limit of returned values is an eigenvalue; every returned value in a disc is within eps of an eigenvalue for all large n; unless every complex number is an eigenvalue the spectrum is discrete (finitely many eigenvalues in every disc), and every eigenvalue is approximated by a returned value.  For u'' with Dirichlet conditions these are the numbers -(k pi/(b-a))^2. The coefficient functions have to be multiplied exactly by the multiplication matrices (C41).", "quantifier": "every scalar linear operator with constant leading coefficient, polynomial lower order coefficients, every interval, all boundary conditions of order below that of the operator, every behaviour of the QZ decomposition that is a correct one, every tolerance, every n", "why_tests_cant": "convergence is a statement about all n and about all points of compact sets; a test looks at one n and one operator", "anchors": ["funpy/colloc/eig.py: eigs", "funpy/colloc/OpDiscretization.py: matrix", "funpy/colloc/ultraS/ultraS.py: quasi2diffmat"]}
{"id": "C132", "title": "Constant coefficients: the Fourier discretisation is the symbol", "statement": "For a periodic operator with constant coefficients (derivatives, an integral term, derivatives of the aggregation operator) the matrix is diagonal with the values of the symbol as entries; the problem is uniquely solvable exactly when the symbol has no zero; whenever the matrix is regular the computed function is exactly the solution (at every point, no discretisation error); the discrete eigenvalues are the values of the symbol; shifting the right hand side shifts the solution; real data give real solutions.", "quantifier": "every order, all constant coefficients, every interval, every number of modes, every right hand side", "why_tests_cant": "exactness and unique solvability are statements about all functions and all parameters", "anchors": ["funpy/colloc/trigspec/trigspec.py: quasi2diffmat", "funpy/colloc/trigspec/matrices.py: diffmat, multmat, intmat, aggmat", "funpy/colloc/sparse/csr.py: eliminate_zeros"]}
{"id": "C133", "title": "The adaptive solver solves linear boundary value problems", "statement": "End to end: for a uniquely solvable linear boundary value problem and every delta > 0, SolverAdaptive.solve started with sufficiently many coefficients reports success, after at most two Newton iterations on its last grid, and returns a function within delta of the solution together with its derivatives up to the order of the operator. For a u^(r) = f the result is exact as soon as the state has r more coefficients than f. Success alone is no guarantee: with fewer coefficients than the right-hand side, success is reported with a function that is not a solution. The coefficient functions have to be multiplied exactly by the multiplication matrices (C41).", "quantifier": "every scalar linear operator with constant leading coefficient and polynomial coefficients, every interval, all boundary conditions of order below that of the operator, every right-hand side with finitely many coefficients, every starting state, all methods lu, qnerr, nleq, all bounds and tolerances of the adaptive solver, in-place or not", "why_tests_cant": "the claim ranges over all problems, starts, tolerances and grid sequences, and needs the limit of the number of coefficients", "anchors": ["funpy/colloc/adapt.py: SolverAdaptive.solve", "funpy/newton/newton.py: Newton.solve", "funpy/colloc/OpDiscretization.py: matrix", "funpy/colloc/ultraS/ultraS.py: quasi2diffmat, project_vector"]}
{"id": "C134", "title": "The adaptive solver solves linear periodic problems", "statement": "End to end: for a linear periodic problem with constant leading coefficient whose homogeneous problem has only the zero solution, and for every delta > 0 and every J, SolverAdaptive.solve started from an odd and sufficiently large number of modes, with no clipping of the largest grid, reports success after at most two Newton iterations on its last grid, with a function within delta of the unique periodic solution together with its derivatives up to the order J. If the largest grid is clipped the last grid has an even number of modes.", "quantifier": "every scalar periodic operator with constant leading coefficient (including non-local aggregation and integral terms), every interval, every right-hand side with finitely many Fourier coefficients, every starting state with an odd number of modes, all methods lu, qnerr, nleq, all bounds and tolerances, in-place or not", "why_tests_cant": "the claim ranges over all problems, starts, tolerances and grid sequences, and needs the limit of the number of modes", "anchors": ["funpy/colloc/adapt.py: SolverAdaptive.solve, n_disc", "funpy/newton/newton.py: Newton.solve", "funpy/colloc/trigspec/trigspec.py: quasi2diffmat", "funpy/trig/trigtech.py: prolong"]}
{"id": "C135", "title": "chebpoly returns Chebyshev polynomials", "statement": "chebpoly(n, kind=1) returns, for a number or a nonempty list of degrees, the Chebyshev polynomials of the first kind of these degrees in the given order; kind=2 returns those of the second kind, for at least two degrees that are not all zero. Any other kind is rejected. A single degree with kind=2, or degrees that are all zero, raise instead of returning the polynomial.", "quantifier": "every list of degrees, both kinds, every point of evaluation", "why_tests_cant": "the claim ranges over all lists of degrees and all points", "anchors": ["funpy/chebpoly.py: chebpoly"]}
{"id": "C136", "title": "Continuation follows the parameter from start to end", "statement": "Continuation run from p0 to pf in n steps solves the problem at exactly the n+1 equidistant parameter values in order, both ends included and in both directions; every solve starts at the previous solution; the run stops at the first failing solve. If no solve fails the result is a solution at pf. A failing solve is not reported: its unconverged result is returned like a solution.", "quantifier": "every solver, every guess, all parameter values and numbers of steps", "why_tests_cant": "the claim ranges over all solvers and all histories of solves", "anchors": ["funpy/colloc/cont.py: Continuation.__call__"]}
{"id": "C137", "title": "The discretisation for constant solutions", "statement": "realDiscretization maps a linear operator (or a system of them) with constant coefficients to the matrix that acts on vectors of constants like the operator on constant functions, if there are no integral terms or the interval has length one. On other intervals the integral terms lack the factor b - a; integral terms whose functions have more than one coefficient raise; of a coefficient that is not constant only the first Chebyshev coefficient is used.", "quantifier": "every size of system, every interval, all constant coefficients and integral kernels, every vector of constants", "why_tests_cant": "the claim ranges over all operators, intervals and vectors", "anchors": ["funpy/colloc/realDiscretization.py: quasi2diffmat, matrix", "funpy/colloc/chebOp.py: 426-428"]}
{"id": "C138", "title": "The default Newton method on linear problems", "statement": "Newton.solve with its default method (giant, also the default of ChebOp.solve) on a regular linear problem: when it reports success the returned point should be the solution up to the tolerance. This holds if the first correction is within the tolerance. Otherwise it fails: with an accurate inner linear solver success is reported after one step with a point that stays within the tolerance of the start (the error is not reduced, and the better the inner solver the closer the result is to the start); with an exact preconditioner in exact arithmetic failure is reported and the start returned, although the first linear solve found the solution.", "quantifier": "all regular linear problems in real inner product spaces of any dimension, all inner solvers with relative error at most 1/8, all starting points, tolerances and options with the default damping factor 1", "why_tests_cant": "the claim ranges over all linear problems, starts, tolerances and inner solvers; with the inexact preconditioners of the test problems the defect only lowers the accuracy", "anchors": ["funpy/newton/giant.py: giant_gbit (lines 155-213)", "funpy/newton/newton.py: Newton.solve", "funpy/linalg/gbit.py: gbit", "funpy/colloc/chebOp.py: solve"]}
{"id": "C139", "title": "ChebOp.solve: what is returned", "statement": "op.solve returns (solution, success, residual): success is the flag of the nonlinear solver, residual is op.residual of the function the solver found, the solution is that function without negligible trailing coefficients (every dropped coefficient is at most the cube root of the machine precision), and with state=True the returned state contains the same function and is otherwise as the solver left it. Without a guess it starts at zero functions, one per equation, with the parameters of the operator. On uniquely solvable linear boundary value problems the solution is, up to the simplification, within delta of the exact solution when started with enough coefficients. The norm index p has no effect and infinity raises, passing tol raises, and the residual ignores all coefficients beyond the current discretisation.", "quantifier": "all operators, guesses, nonlinear solvers (any function returning a state), all functions found, all linear boundary value problems of C133", "why_tests_cant": "the claim ranges over all operators, solvers and solution functions", "anchors": ["funpy/colloc/chebOp.py: solve, residual", "funpy/cheb/chebtech.py: happy, simplify", "funpy/fun.py: zeros, simplify"]}
{"id": "C140", "title": "Periodic problems on even grids", "statement": "Let L be a periodic linear operator as in C128 whose homogeneous problem has only the zero solution. For all sufficiently large numbers n of modes, odd or even, the Fourier discretisation has exactly one solution for every right-hand side, and for a right-hand side with finitely many modes these solutions converge to the unique periodic solution with every derivative, uniformly and faster than every power of 1/n; SolverAdaptive.solve started from any state with sufficiently many coefficients, whether odd or even and whether or not its largest grid is clipped, reports success with a function within delta of that solution. This holds for operators of even order; for every odd order r the problem u^(r) + int u = f is uniquely solvable while its matrices are singular for every even n.", "quantifier": "every scalar periodic operator of even order with constant leading coefficient (including integral and aggregation terms), every interval, every right-hand side with finitely many modes, all n from some N on, all powers, derivatives and points; all starts, bounds and tolerances of the adaptive solver", "why_tests_cant": "convergence and regularity are statements about all n and all uniquely solvable problems", "anchors": ["funpy/colloc/trigspec/matrices.py: diffmat, multmat, intmat, aggmat", "funpy/colloc/trigspec/trigspec.py: quasi2diffmat", "funpy/colloc/adapt.py: SolverAdaptive.solve, n_disc"]}
{"id": "C141", "title": "Uniquely solvable periodic systems are solved", "statement": "Consider a system of d linear periodic equations of order r for d unknown functions whose coefficients are trigonometric polynomials (with integral and aggregation terms) and whose leading coefficients form a constant invertible matrix. If the homogeneous system has only the zero solution then for all right-hand sides with finitely many Fourier modes there is exactly one periodic solution, it is smooth, and for all sufficiently large numbers n of modes (odd n, or any n if r is even) the block matrix of the Fourier discretisation is regular and the discrete solutions converge to it with all derivatives, uniformly and faster than every power of 1/n; for even r SolverAdaptive.solve started from any state with sufficiently many coefficients reports success with functions within delta of that solution. Weakly coupled elliptic systems (the coupling and aggregation coefficients are together smaller than the reaction coefficient) satisfy the hypothesis; a constant coefficient system does exactly when the matrix of the symbols of its blocks is regular for every wave number.", "quantifier": "every number of unknowns, every interval, every order, all coefficient functions with finitely many modes, all right-hand sides with finitely many modes, all n from some N on, all powers, derivatives and points; all starts, bounds and tolerances of the adaptive solver", "why_tests_cant": "convergence and regularity are statements about all n and all uniquely solvable systems", "anchors": ["funpy/colloc/trigspec/matrices.py: diffmat, multmat, intmat, aggmat, blockmat", "funpy/colloc/trigspec/trigspec.py: quasi2diffmat, reduce", "funpy/colloc/coeffsDiscretization.py: instantiate", "funpy/colloc/adapt.py: SolverAdaptive.solve"]}
{"id": "C142", "title": "Boundary value problems with integral terms are solved", "statement": "Consider an operator sum a_j u^(j) + sum c_i int d_i u over the whole interval, of order r >= 1 with a constant leading coefficient and any number of integral terms, with r conditions on derivatives of order < r such that the homogeneous problem has only the zero solution, and coefficient functions that are multiplied exactly by the assembled matrices (C41). Then the problem is well-posed; for every right-hand side with finitely many Chebyshev coefficients and all boundary values it has a solution u; all sufficiently large discretisations have exactly one solution and these converge to u with all derivatives up to the order r, uniformly and faster than every power of 1/n; and SolverAdaptive.solve started from any state with sufficiently many coefficients reports success with a function within delta of u. With one integral term c int d u, if the problem without it is uniquely solvable and w0 solves it for the right-hand side c and homogeneous conditions, the homogeneous problem has only the zero solution exactly when 1 + int d w0 is not zero. In contrast to problems without integral terms (C127) initial value problems need not be of this kind: u' - 2 int u, u(0) = 0 on [0, 1] has the solution u = y and every discretisation of it is singular.", "quantifier": "every such operator, any number of integral terms, every list of conditions, every right-hand side with finitely many coefficients, all boundary values, all n from some N on, all powers, derivatives up to r and points; all starts, bounds and tolerances of the adaptive solver", "why_tests_cant": "unique solvability, well-posedness and convergence are statements about all functions and all discretisation sizes", "anchors": ["funpy/colloc/ultraS/ultraS.py: quasi2diffmat, project_vector", "funpy/colloc/ultraS/matrices.py: intmat", "funpy/colloc/OpDiscretization.py: matrix", "funpy/colloc/chebOpConstraint.py: ChebOpConstraint", "funpy/colloc/adapt.py: SolverAdaptive.solve"]}
{"id": "C143", "title": "Newton's method for nonlinear periodic problems converges to the solution", "statement": "Consider a periodic equation L u + N(u) = f, L an operator as in C128 of order r >= 1 with a constant leading coefficient, N a polynomial in u, u', ..., u^(r-1) with trigonometric polynomials as coefficients, f a trigonometric polynomial, and a smooth periodic solution u which is nondegenerate (the linearised equation has only the zero solution). Let the Newton systems be the matrices of quasi2diffmat for the linearisation, of which no entry is below the drop tolerance, and the right-hand side the first n Fourier coefficients of the residual. Then there are a radius rho > 0 and N0 such that for all odd n >= N0: the discretised equation has exactly one solution vs within rho of the first n modes of u, and these solutions converge to u with all derivatives, uniformly and faster than every power of 1/n; at every v within rho the linearisation is again an operator that quasi2diffmat discretises, and its matrix is invertible; Newton's step from v stays within rho, divides the distance to vs by at least four and squares it up to a constant which does not depend on n; the inverses of the matrices are bounded independently of n; hence the iterates from every such start are uniquely determined, never leave the ball and converge to vs, and if the residuals carry errors up to eta, small enough, they still stay in the ball and end up within a constant times eta of vs.", "quantifier": "every such equation and nondegenerate solution, every odd n from some N0 on, every start within rho, every step of the iteration, all powers, derivatives and points", "why_tests_cant": "rho, N0 and the constants hold for all discretisation sizes and all starts at once; a test sees one n and one start", "anchors": ["funpy/colloc/trigspec/trigspec.py: quasi2diffmat", "funpy/colloc/trigspec/matrices.py: diffmat, multmat, intmat, aggmat", "funpy/newton/newton_standard.py: newton_standard", "funpy/colloc/rhs.py: Residual"]}
{"id": "C144", "title": "Newton.solve finds solutions of nonlinear periodic problems", "statement": "Consider a nonlinear periodic equation L u + N(u) = f with a smooth nondegenerate solution u as in C143, discretised with n Fourier modes: the residual consists of the Fourier coefficients of L v + N(v) - f, and the linear systems are those assembled by quasi2diffmat for the linearisations, solved exactly when they are regular. Then there are rho > 0 and N0, and for every tolerance a number K, such that for all odd n >= N0, every inner product whose norm is bounded by the weighted coefficient norm, every iteration limit of at least K and every start within rho of the first n modes of u, Newton.solve with method 'lu' reports success after at most K iterations. K, rho and N0 do not depend on n. The returned function is still within rho of u, and its distance to u is everywhere at most 2 rho / 4^k plus a discretisation error that decays faster than every power of 1/n; when the norm of the iteration controls the weighted norm with constant b the first term can be replaced by b tol / 3.", "quantifier": "every such equation and nondegenerate solution, every tolerance, every odd n from some N0 on, every iteration limit from K on, every start within rho, every admissible inner product, every power of 1/n, every point", "why_tests_cant": "the number of iterations and the basin are uniform in the discretisation size, and the error bound holds for all sizes; a test sees finitely many", "anchors": ["funpy/newton/newton.py: Newton.solve", "funpy/newton/newton_standard.py: newton_standard", "funpy/newton/NewtonSystem.py: rhs, solve", "funpy/colloc/trigspec/trigspec.py: quasi2diffmat", "funpy/linalg/exact_linear_solver.py: ExactLinearSolver"]}
{"id": "C145", "title": "The adaptive solver finds solutions of nonlinear periodic problems", "statement": "Let a nonlinear periodic equation L u + N(u) = f of order r have a smooth nondegenerate solution u, as in C143 and C144, and let the adaptive solver run Newton.solve with method 'lu' on its Fourier discretisations with an inner product whose norm bounds every coefficient and is bounded by the weighted coefficient norm. There is a rho > 0 such that for every accuracy delta > 0 there are a tolerance bound and a starting size n0 such that for every tolerance below the bound there is an iteration number K for which: from every initial state with an odd number n >= n0 of coefficients that is within rho / 2 of the first n modes of u, with an iteration limit of at least K, an attainable largest size and any adaptive tolerance, starting bound and failure limit, SolverAdaptive.solve succeeds, reports at most K iterations, and returns a function whose values and derivatives of every order below r are everywhere within delta of those of u. In particular the state passed between sizes, prolonged by padding, stays in the basin of Newton's method at every size.", "quantifier": "every such equation and nondegenerate solution, every accuracy, every sufficiently small tolerance, every sufficiently good initial state with enough modes, every adaptive configuration with an attainable largest size, every point", "why_tests_cant": "it speaks about all discretisation sizes the adaptive loop may visit and all initial states in a basin; a test runs one equation from one initial state", "anchors": ["funpy/colloc/adapt.py: SolverAdaptive.solve, n_disc", "funpy/newton/newton.py: Newton.solve", "funpy/newton/newton_standard.py: newton_standard", "funpy/colloc/trigspec/trigspec.py: quasi2diffmat", "funpy/trig/trigtech.py: prolong"]}
{"id": "C146", "title": "odecode prints the equations of space-independent solutions", "statement": "The code which odecode prints for an expression of an operator, evaluated with numbers for the unknown functions and a point for x, gives without an error the value of the expression for the constant functions with these values at this point: derivatives vanish, integrals over the domain are integrals of constants, elementary functions, parameters and constant functions are evaluated.", "quantifier": "all expressions in x, numbers, parameters, unknowns, constant functions, elementary functions, derivatives and integrals, of any depth; all values of the unknowns; all domains; all settings; every table of known functions of sympy", "why_tests_cant": "expressions are arbitrary trees and the values range over all real numbers", "anchors": ["funpy/odecode.py: OdePyPrinter._print_Derivative, _print_Function, _print_Integral, odecode"]}
{"id": "C147", "title": "Constant and random functions", "statement": "zeros(n) and ones(n) return n functions that are zero, respectively one, everywhere. zeros_like(f) and ones_like(f) return functions of the type, size and number of columns of f that are zero, respectively one, everywhere. random(n, m, scale) returns m functions with n coefficients of absolute value at most scale; random_decay(n, m, scale) returns functions whose coefficients decay like (1 + k)^-2.", "quantifier": "all numbers of columns and coefficients, both types of functions, all points, all scales, all outcomes of the random numbers", "why_tests_cant": "the sizes and the points are unbounded and the random numbers range over a continuum; a test sees one realisation", "anchors": ["funpy/fun.py: zeros_like, ones_like, zeros, ones, random, random_decay", "funpy/cheb/chebtech.py: chebtech.__init__", "funpy/trig/trigtech.py: trigtech.__init__"]}
{"id": "C148", "title": "Operators and numpy functions on functions: powers, signs, comparisons", "statement": "Python's operators and numpy's functions applied to functions are pointwise and return new functions: np.ufunc(f), np.ufunc(f, g), f**p, p**f, +f represent the pointwise results as well as the constructor represents a callable, raise only if the constructor raises, accept numbers in place of functions, and share no data with their arguments. f == g is true exactly if the functions are equal, and f != g is its negation.", "quantifier": "all functions of both types, all numbers, all numpy functions of one or two arguments, all later changes in place, every behaviour of the constructor", "why_tests_cant": "the functions, the elementary functions and the later changes in place are arbitrary", "anchors": ["funpy/cheb/chebtech.py: chebtech.__array_ufunc__, __array_function__", "funpy/trig/trigtech.py: trigtech.__array_ufunc__, __array_function__", "funpy/cheb/ufuncs.pyx: positive, power", "funpy/trig/ufuncs.py: positive, power", "funpy/fun.py: Fun.__array_ufunc__, __eq__, __len__"]}
{"id": "C149", "title": "Updating the borders of a bordered solver", "statement": "After any history of update_row and update_col calls, on the solver and on others, BEMW.solve and solve_adj solve the system with the rows, columns and corners last given (and its transpose); only the final matrix and its leading blocks have to be nonsingular, not those in between. An index out of range changes nothing; with a singular core every solve raises. The lists given by the caller are left unchanged and solvers built from the same lists do not influence each other.", "quantifier": "all fields, sizes, core solvers, borders, all histories of updates of any number of solvers, all contents of uninitialised memory, all right-hand sides", "why_tests_cant": "the histories, sizes and data are arbitrary, and uninitialised memory has arbitrary contents", "anchors": ["funpy/linalg/bemw_solve.py: BEMW.__init__, update_row, update_col, solve, solve_adj"]}
