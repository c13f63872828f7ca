# funpy: formal model and proofs (Lean 4 + Mathlib)

## 1. Approach
funpy is numerical code.  Every function is modelled as a total Lean function over exact
arithmetic (a field, `ℝ` or `ℂ`), one Python function per Lean definition, with the control
flow (case splits, loop bounds, index arithmetic, in-place updates, exceptions) preserved.
Exceptions are modelled as `Except`/`Option` results.  The properties are stated against a small
separate specification (`Verif/Spec/*.lean`: Chebyshev series via Mathlib's
`Polynomial.Chebyshev`, Fourier series, integrals via Mathlib's `intervalIntegral`,
derivatives via Mathlib's `deriv`/`Polynomial.derivative`, matrices via `Matrix`).

Layout of `lean/Verif`:
* `Model/*`  – transcription of the Python/Cython code (definitions only);
* `Spec/*`   – meaning of the properties, independent of the model;
* `Lemmas/*` – auxiliary proofs;
* `Props/*`  – the property theorems, each followed by an `example` meeting its hypotheses.

## 2. Trusted base
* Lean 4.33.0's kernel, and the axioms `propext`, `Classical.choice`, `Quot.sound`
  (checked with `#print axioms`; no own axioms, no compiled-code tactics).
* Mathlib's definitions used in the statements.
* The reading of the Python code recorded in the doc comment of every model definition.
* Exact arithmetic instead of IEEE doubles: rounding, overflow, NaN and infinities are not modelled
  (where the code relies on NaN, e.g. `barymat`, that is said in the comment and modelled as a case split).
* `numpy`/`scipy` primitives (`dct`, `fft`, `ifft`, slicing, broadcasting, sparse constructors,
  `linalg` factorizations) are modelled by their documented exact mathematical meaning.
* h5py and matplotlib are not modelled; eigenvalue solvers are oracles with their documented contract. The code
  generators in `colloc/source` are modelled as far as C101, C103, C110, C112, C113 and C131 say (see section 4 for the rest).

## 3. Plan per property
| id | what is modelled | how it is proved |
|----|------------------|------------------|
| C01 | `Mapping.fwd/bwd/der`, `Fun.__call__` assertion | field arithmetic, order |
| C02 | unrolled Clenshaw loop on lists | loop invariant by induction, T-recurrence |
| C03, C04 | alternating sums, in-place sign change of odd rows | `T_n(±1)`, parity of `T_n` |
| C05 | `prolong` three branches | list lemmas |
| C06, C07 | DCT-I, point formula | cosine orthogonality sums |
| C08, C09 | `computeDerCoeffs` with its two strided cumsums, `diff` | recurrence `2T_n = U_n - U_{n-2}`, induction |
| C10, C11 | `sum`, `cumsum` | integral of `T_n`, derivative identity |
| C12–C14 | ufuncs `add, subtract, negative, multiply, true_divide`, FFT product | `2T_mT_n=T_{m+n}+T_{m-n}`, DFT convolution theorem |
| C15–C17 | `innerw`, `quadwts`, `inner` | orthogonality integrals, discrete Fourier sums |
| C18, C19 | `hstack`, `__getitem__`, `flatten`, `from_coeffs` | list lemmas |
| C20–C23 | `standardChop`, `simplify_coeffs` | loop analysis; counterexamples for C21, C23 |
| C24 | `Refine.get_n`, nested refinement, `populate` | invariant over histories |
| C25–C27 | domain check, copies, HDF5 attribute dictionary | case analysis; counterexamples |
| C28, C29 | colleague pencil, linear branch | three-term recurrence |
| C30–C38 | `trigtech` | exponential sums, DFT; counterexamples where the code deviates |
| C39–C42 | `ultraS/matrices.py` | ultraspherical recurrences |
| C43 | CSR/CSC surgery | denotational semantics of CSR/CSC |
| C44, C45 | bordered solvers | linear algebra over an arbitrary field |
| C46–C48 | `helpers.py`, `tools.py` | permutations, determinants, arithmetic |
| C49–C51 | `vectorspaces` | componentwise lemmas; counterexamples |
| C52–C54 | Newton loops, deflation | loop invariants over arbitrary oracles |
| C55, C56 | barycentric and Jacobi/ultraspherical conversions | Lagrange interpolation, connection recurrences, induction over the cascade |
| C57 | `bary` (types 1, 2) | second barycentric formula; counterexamples for type 1 and single nodes |
| C58, C59 | `diffmat`, evaluation of `Fun` objects | barycentric derivative; state passing for in-place updates |
| C60–C64 | trig ufuncs, `simplify`, circular convolution | DFT convolution theorem; counterexamples for even lengths |
| C65 | `quasi2diffmat`, adjoints | operator semantics on polynomials |
| C66, C67 | `csr_vappend`, `flip`, `eliminate_zeros`, `reduceOne` | denotational semantics of CSR/CSC |
| C68, C69 | widened bordered solver, bifurcation system | block elimination over a field |
| C70, C71 | `logdet` helpers, Givens/Hessenberg | permutation signs, orthogonal invariance |
| C72–C76 | `qr_solve`, `qr_chol`, `lucp`, `nullspace`, `fold_solve` | matrix factorization identities from the oracle's contract |
| C77 | `out=` forms of ufuncs | store-passing model of aliasing |
| C78–C80 | continuation states, HDF5, Moore-Penrose states | store-passing model, string maps |
| C81 | `qnerr` | loop invariant, Broyden algebra in an inner product space |
| C82 | `NewtonSeeker.solve` | case analysis |
| C83 | `gbit` | well-founded recursion, loop invariant, Broyden algebra |
| C84 | `normh`, `norm`, `norm2`, index checks | C15/C17 integrals, discriminant argument |
| C85 | pointwise `power`/`absolute` through the adaptive constructor, `norm` | error bound of the chopped interpolant, integrals |
| C86 | `minandmax`, `norm(inf)` with roots of the derivative | extreme value theorem, Fermat; counterexample |
| C87 | `Fun(op=…)`: adaptive constructor with nested sampling and chopping | near-best lemma: interpolation is a projection of norm ≤ 2N, chopping bound |
| C88 | `__array_ufunc__` fallback for one and two arguments | C87 with the composed callable |
| C89 | `fun.compose` with one and two functions | C87; counterexamples for domains other than `[-1,1]` |
| C90 | `chebtech.compose` with one and two functions (Model/ChebCompose, ChebCompose2) | C87 for the truncated arguments; counterexample `T_16` |
| C91 | `chebtech.restrict` | affine substitution keeps the degree, interpolation exact; failures |
| C92 | `Functional`, `np.dot` | DCT symmetry, exactness of Clenshaw–Curtis; counterexample |
| C93 | `abstractQR`, `cheb/qr.py`, `fun.qr` | Householder invariant in an abstract inner product, Legendre orthogonality, exactness of Clenshaw–Curtis |
| C94 | Model/TrigSpec.lean: every matrix entry of diffmat, multmat (with all branches of sptoeplitz), intmat, aggmat and the assembly loop of quasi2diffmat with its removal of tiny entries | entry (i,j) of multmat is the Fourier coefficient i-j of the function; differentiation and aggregation matrices act on exponentials; linearity of the Fourier coefficients |
| C96 | Model/ChebColloc.lean: Colloc with eye, diff, call on top of the models of chebptsType2, barymat and diffmat | C58 (diffmat differentiates), C55 (barymat interpolates) rescaled to the domain; uniqueness of interpolation |
| C97 | Model/ChebColloc.lean: abstract syntax of the compiled condition, its run on collocation objects and on functions with numpy broadcasting, residual, functional and the conversion to coefficients | structural induction over the condition: the row is the condition evaluated on the Lagrange basis; conversion by the exactness of polyfit |
| C98 | Model/OpDisc.lean: matrix and project_vector for one equation as rows over the reals | C65 (operator matrix applied to coefficients), C39 (conversion), C97 (boundary rows), injectivity of ultraspherical series; partial because products are required to fit in n coefficients and systems of equations are not covered |
| C100 | Model/Adaptive.lean: n_disc, the bounds, and the loop over an arbitrary Newton oracle that may modify its argument | induction over the remaining grids with the invariant linking the success array to the history |
| C103 | Expression trees; symbolic differentiation term by term; expand as a parameter known only to preserve the value (and shown to exist); coefficient extraction by atom; order of the operator from the zip of equations and functions | Structural induction: symmetry of second derivatives for compound derivatives, differentiation under the integral sign; collection of coefficients by induction over the list of terms; order bound by structural induction. Scalar differential equations: unconditional. With integrals: no repeated integral, no derivative of p in an integrand. Systems: order at least that of every unknown |
| C101 | eigs and GeneralizedEigenvalueOp on top of the discretisation of C98; scipy's ordqz is an oracle with its documented contract (unitary factors, triangular pencil, diagonals) | Determinant of the triangular pencil; real and imaginary parts; C98 |
| C105 | Model/TrigColloc.lean: the column, the row and the Toeplitz matrix, literally | summation by parts of k^m z^k over roots of unity gives the kernel of the m-th derivative in closed form; orthogonality of the modes; derivatives of the modes on the grid |
| C95 | Model/QuasiOp.lean: blocks with flags, coefficient functions and integral terms over an arbitrary function arithmetic; apply is the operator that quasi2diffmat discretises | induction over the lists of coefficients, linearity of the integral |
| C106 | Model/Iter.lean: memory of positions, __iter__, __next__, Python's for statement, list, zip, nested loops, with an explicit number of steps so that non-termination is expressible | induction over the remaining items for loops whose body leaves the position alone; the failing cases are computed in general (every number of columns) |
| C99 | Model/OpEval.lean: equations are arbitrary partial maps of an environment and the columns of the argument; Residual, LinSys.updatePartial/setDisc, Op.call/residualFun function by function. | induction over the filling loop of Residual.update (fillLoop_eq), then coefficient lemmas of the Chebyshev model. |
| C104 | Model/OpEval.lean: Op with the events of Event; histories are lists of events (Op.run). | invariants over histories (Wf, Current) by induction on the list of events. |
| C107 | Model/Brd.lean (BMatrix); LAPACK's QR is an oracle with the specification IsQR (Spec/QR), triangular solves are exact. | Schur complement identities (nonsing_rows), null vector identities of C72; the backward-error statement replaces R[-1,-1] by zero (snap) and reuses the singular theorem. |
| C108 | Model/Brd.lean (LU): the loops permutation, forward and back substitution as written; SuperLU is an oracle with its documented convention (IsSuperLU), lucp is the model of C74. brd_solve and brd_solve_detail refer to an undefined name A and always raise: not modelled. | loop invariants for permutation, forsub, backsub; elimination identity lu_rows; null vectors from C74/C75. |
| C109 | Model/TrigRefine.lean: the refinement loop with the samples, the happiness test, prolong and simplify; NaN/Inf checks and FunctionContainer's dtype are not modelled. | invariant: the stored values are the samples on the current grid (nested interleaving proved equal to resampling); induction over the size sequence; standardChop specification on the raw coefficients; Hermitian symmetry for real functions; error of partial sums through Fourier coefficients. |
| C110 | Model/SecondOrder.lean: expressions of Model/Linearize.lean with symbols for functions, perturbations and parameters; the block coefficients, bilinear, the adjoint variant, compile_dp, bilinear_dp and the two loops of compile_fold. Emission of Python source is not modelled; the integer order argument is that of compile. | total derivative = sum of the partial ones by induction over expressions (mixed partials by smoothness of the evaluation in the point and the increment); coefficient extraction keeps values; applied twice; Euler homogeneity of the linearised expression for the mixed and the adjoint forms; test functions (x-y)^o identify the coefficients. |
| C111 | Model/RieszFun.lean: construction and evaluation for all bases, the import errors of the missing modules, the reshape of coefficient vectors; the trigonometric objects of Model/TrigTech.lean. | Parseval for trigonometric polynomials on [-1,1], chain rule for the rescaling to the domain, induction over the order; iterated derivatives of the interpolant by the coefficient derivative of C20. |
| C112 | Model/Emit.lean: the generator at the level of characters, indentation and lines, an interpreter for the text it produces (definitions, assignments, comments), the build loops. Coefficient expressions are opaque texts; the parameter derivative part of LinSys.build is not modelled. | the text is a sequence of complete lines; executing it equals applying a list of bindings; injectivity of decimal names; induction over terms, blocks and equations. |
| C113 | Model/Printer.lean: the printer from expression trees to Python trees with its settings and the order of its cases, and the evaluation of Python trees over numbers and exact functions; parentheses (inherited from sympy) and _print_Subs are not modelled. | induction over expressions, with an invariant telling which values are numbers and which are functions; the specification is the meaning of expressions used by C103 and C110. |
| C114 | Model/NewtonSolve.lean: selection of the driver and of the exact linear solver by name, over the drivers of Model/Newton.lean; the discretised problem is an abstract residual with a linear solver that solves regular systems. | contraction of the simplified Newton steps in a ball from strict differentiability; the damping loop accepts the full step there; the quasi-Newton steps are Broyden updates whose distance to the derivative stays bounded (deterioration bound, summed by the contraction), the stored vectors applying their inverse by the Sherman-Morrison formula; induction on the number of steps left. |
| C115 | Model/SysDisc.lean: lists of rows put together from the blocks of Model/TrigSpec.lean and Model/UltraS.lean in the order of the code, deletion of the last r rows of every block, projection with conversion matrices on the diagonal. | block matrix times stacked vector by induction on the number of blocks; each block from C94 and C65; uniqueness of ultraspherical series for the converse. |
| C116 | Model/OpIO.lean: the attributes as a record, the HDF5 group as a record of data sets with fixed-length texts (ASCII), the keyword arguments the constructor accepts. | by unfolding; induction over the lists of texts for the truncation to 30 and 250 characters. |
| C117 | Model/OpLife.lean: the flags prepared and par_set, the stored linear system, what the compilation of a source generates and when it raises; user actions as an inductive type, histories as lists. | an invariant over histories by induction; for the failures, prepared and par_set make every later compilation a no-op. |
| C102 | Model/Reflection.lean (namespace Tools): the double loops as folds of list updates, the uninitialised array as an arbitrary list. | loop invariants by induction over both loops, then index arithmetic. |
| C118 | Model/Householder.lean: LAPACK's documented algorithm (pivot, larfg, larf, orgqr) in exact arithmetic, the count of nonzero tau as in the code. | invariant over the steps (product of reflections, reduced columns, dominating diagonal); determinant of a reflection; rank of a triangular matrix with zero tail.  This discharges the hypothesis IsQR of C72 and C73. |
| C119 | Model/Reflection.lean: the loop over the tiles for one point, uninitialised values as none. | induction over the tiles: every tile that contains the point assigns the value of f at a triangular wave. |
| C120 | Model/NewtonMat.lean: LinBlock.quasi with simplification, the source read by quasi2diffmat (flags, coefficients, integral terms); combined with the models of C103, C98, C22, C65. | composition of C103_differential, C22_error and C98/C121; the flags may only be false for coefficients that vanish.  Integral terms are not part of the statement. |
| C121 | Model/UltraS.lean, Model/OpDisc.lean, Model/Eigs.lean (unchanged). | entries of the multiplication matrices are those of the infinite operator (finite section); the conversion S_j lowers the index of a mode by at most 2; C98_rows for the rows of the discretised problem. |
| C122 | Model/TrigTechDiff.lean: the columns by the flipping trick (k=1,2) and by the FFT (k>=3), the Toeplitz matrix. | every column is pi^k times the kernel of a symbol; kernels act on modes by multiplication; the FFT of the unit vector is constant, re-indexing of the wave numbers. |
| C123 | Model/Newton.lean, Model/NewtonSolve.lean, Model/OpDisc.lean (unchanged). | the simplified correction at x + t dx is (1-t) dx, so the contraction factor is 1-t, the estimated nonlinearity is zero and the next damping factor is 1; execution of the loops.  The inexact method giant divides by the zero difference of corrections on linear problems and is left out. |
| C124 | Model/OpDisc.lean, Model/UltraS.lean (unchanged). | C98 in both directions; the r-th derivative has no modes k >= n-r, so the residual vanishes; a polynomial with vanishing r-th derivative has degree < r; dimension count for existence. |
| C125 | TrigFun.adhesion, TrigFun.uniformKernel (Model/Kernels.lean) on top of Tech.adhesion | termwise: multiplication of each mode by the kernel coefficient equals integration of the shifted mode against the kernel; padding and chopping lemmas of C60-C62 |
| C126 | Model/UltraS.lean, Model/OpDisc.lean (as for C65, C98, C121) | weighted l1 norms of coefficient sequences (Lemmas/CoefNorm), coefficient regularity from the maximum norm estimate and discrete stability by a tail perturbation argument (Lemmas/SpectralStab); the rows of the matrix are the first n - r rows of the exact operator on coefficients (C121); then C126_regular, C126_residual, C126_converges |
| C127 | Model/UltraS.lean, Model/OpDisc.lean, Model/ChebColloc.lean (conditions) | Gronwall and a compactness argument: uniqueness implies an a priori estimate for all derivatives up to the order r (Lemmas/OdeStab); the discrete solutions are then a Cauchy sequence whose limit solves the problem; initial value problems by Gronwall, Dirichlet problems by an energy argument; hypothesis that the coefficient functions are multiplied exactly for large n (C41) |
| C128 | Model/TrigSpec.lean (as for C94) | weighted l1 norms of Fourier coefficients and discrete stability by a tail perturbation argument (Lemmas/FourierStab); the matrix is the section of the operator on coefficients (C94_assemble_partial); elliptic problems by the maximum principle for |w|^2 |
| C129 | Model/TrigSpec.lean (as for C94, C128) | compactness in weighted l1 norms of coefficients: uniqueness implies a coefficient estimate (Op.stable_of_unique); the solutions of the sections form a Cauchy sequence in every norm (Op.section_cauchy), whose limit is smooth and solves the equation because the operator is continuous under uniform convergence of the derivatives; the singular case directly from the section property |
| C130 | Model/LinOp.lean (linop, RectProj), on top of Model/OpDisc.lean and UltraS.lean; the representers BB computed and discarded by linop are not modelled | the adjoint matrix represents sum (-1)^j a_j v^(j) + sum d_i int c_i v (C130_represents, C130_linop); repeated integration by parts gives the duality for constant coefficients (C130_duality_partial, C130_matrix_partial); the converse by testing with multiples of ((x-a)(x-b))^N and Leibniz' rule (C130_constant_iff) |
| C131 | Model/Eigs.lean (eigs, geMatvec, rhsDense) on top of Model/OpDisc.lean; scipy's ordqz is a parameter of which only the QZ property is assumed | complex ODE stability by compactness (Lemmas/OdeStabC.lean), decay of the coefficients of discrete eigenvectors (Lemmas/SpectralEig.lean), residual bound and uniform invertibility on compact sets; existence by the argument that the discrete resolvent would otherwise be holomorphic in the disc (maximum principle); discreteness of the spectrum by the argument of F. Riesz (riesz_lemma, bounded derivatives, pigeonhole on a finite net); C131_all_eigenvalues shows that the hypothesis is needed; C131_laplace by comparison with sinh |
| C132 | Model/TrigSpec.lean (quasi2diffmat) | symbol of modes (C132_symbol), diagonal matrix from C94; uniqueness by Fourier integrals (integration by parts, completeness of the Fourier system); translations and reality through uniqueness of the discrete solution |
| C133 | Model/Adaptive.lean (solve, loop), Model/NewtonSolve.lean (newtonSolve), Model/OpDisc.lean (matrix, projectVector), Model/ChebEval.lean (prolongCol) | composition of C100 (sizes, loop), C123 (Newton on linear problems), C127 (convergence of the discretisation), C124 (exactness for a u^(r) = f) by an invariant of the loop; scipy's linear solver is a parameter assumed to solve regular systems |
| C134 | Model/Adaptive.lean (solve, loop, nDisc), Model/NewtonSolve.lean (newtonSolve), Model/TrigSpec.lean (quasi2diffmat), Model/TrigTransform.lean (prolongCol) | composition of C100 (sizes, loop), C123 (Newton on linear problems), C129 (convergence of the Fourier discretisation), C32 (prolongation) by the loop invariant of C133; scipy's linear solver is a parameter assumed to solve regular systems |
| C135 | Model/ChebPoly.lean (chebpoly, unit, size) | unit coefficient vectors evaluated against Mathlib's Chebyshev T; for the second kind through invertibility and meaning of convertmat (C39, C42) |
| C136 | Model/Continuation.lean (params, arange, run, call), the inner solver is a parameter | induction over the list of parameter values with the path of guesses as invariant |
| C137 | Model/RealDisc.lean (item, quasi2diffmat, matrix) | direct computation against the independently stated operator applyLin of C98 |
| C138 | Model/Newton.lean (giantGbit, gdamp), Model/Gbit.lean (gbit), Model/GiantGbit.lean (gbitProblem), Model/NewtonSolve.lean | execution of the first pass with estimates of the two corrections by the triangle inequality; C83 for gbit with an exact preconditioner |
| C139 | Model/OpSolve.lean (Op.solve, initState, zerosFun, tidy), Model/OpEval.lean (Op.residual) | execution of the model; C22 for the simplification; C99 for the residual; composition with C133 for the end-to-end statement |
| C140 | Model/TrigSpec.lean (assemble for even n), Model/Adaptive.lean | for even n the matrix is the section to the modes -n/2..n/2-1 of the operator minus the odd-order lower terms on the mode -n/2, a perturbation of lower order; stability in weighted l1 norms (Lemmas/FourierEven.lean); comparison with the symmetric sections of C129; the adaptive loop as in C134 |
| C141 | Model/SysDisc.lean (trigMatrix, bmat), Model/TrigSpec.lean, Model/Adaptive.lean | stability of Fourier sections of systems in weighted l1 norms by inverting the leading matrix mode by mode (Lemmas/FourierSys.lean); uniqueness gives stability by a compactness (Cauchy) argument; maximum principle per component with a contraction over the largest component; Fourier integrals for constant coefficients; the adaptive loop as in C134 |
| C142 | Model/UltraS.lean (quasi2diffmat, discInt, intWeights), Model/OpDisc.lean, Model/Adaptive.lean | the integral terms are finite rank in the weighted l1 spaces of C126, so that the section argument of C126 goes through for the abstract operator (Lemmas/SpectralAbs.lean, SpectralInt.lean); uniqueness gives stability by a compactness argument for the jets and the values of the integrals (Lemmas/IdeStab.lean); the solution is the limit of the discrete solutions; the adaptive loop as in C133 |
| C143 | Model/TrigSpec.lean (quasi2diffmat, assemble, multmat, discDiff, discInt, discAgg); the residual is an exact Fourier coefficient of f - L u - N(u) (simplification: no aliasing, no truncation of the residual function), undamped steps | weighted l1 spaces of Fourier coefficients as in C128: uniform discrete stability of the linearisations near u by a compactness argument (Lemmas/FourierFam.lean), Taylor estimates of the polynomial on coefficients (Props/FourierNL.lean), decay of the residual of the truncations of u (Props/FourierTrunc.lean), a Newton-Kantorovich argument on sections (Lemmas/NewtonCo.lean) |
| C144 | Model/NewtonSolve.lean, Model/Newton.lean (newton_standard), Model/TrigSpec.lean; residual and linear solver exact as in C143 | the iterates of the model's loop satisfy the contraction of C143_newton; induction on the number of remaining steps (Props/FourierNewtonRun.lean) |
| C145 | Model/Adaptive.lean, Model/NewtonSolve.lean, Model/Newton.lean, Model/TrigSpec.lean, Model/TrigTransform.lean (prolongCol); residual and linear solver exact as in C143, largest size not clipped by n_max, one component | induction over the list of sizes with the invariant that the prolonged state lies in the basin at every later size; each call of the solver by the contraction of C144; a compactness modulus turns a small last step into a small weighted error (Props/FourierNewtonAdapt.lean) |
| C146 | Model/OdePrinter.lean (on the expressions and Python values of Model/Printer.lean); parentheses and the text of unsupported functions are not modelled | induction on the expression; expressions without the spatial variable are constant for constant unknowns, so that their derivatives vanish and their integrals are the length of the domain times the integrand (Props/OdePrinter.lean) |
| C147 | Model/Construct.lean (columns of coefficients), Model/ChebTransform.lean (polyfit), Model/TrigTransform.lean (vals2coeffs); the tolerance and the flags of the objects are not modelled here | the transforms are inverse to evaluation on the grid (C07, C31), and constants have one coefficient; bounds on Chebyshev polynomials (Props/Construct.lean) |
| C148 | Model/Ufunc.lean: dispatch on a memory of objects; the adaptive constructor is arbitrary (it is C24, C88, C109) | case distinction over the dispatch; new objects have fresh addresses (Props/Ufunc.lean) |
| C149 | Model/BemwUpdate.lean: solvers and lists in a memory with addresses; preparation and solve are those of Model/Bemw.lean | invariant over the history: the storage is what prepare computes from the current lists; C68 gives the rest (Props/BemwUpdate.lean) |

## 4. What is modelled
`funpy/mapping.py`, `funpy/fun.py` (calls, ufunc dispatch, `hstack`, indexing, copies, HDF5, `diff`/`sum`/`cumsum`/
`inner`/`roots`/`prolong`), `funpy/cheb/*` (`chebtech`, `transform`, `pts`, `eval`, `chop`, `ufuncs`, `diff`,
`refine`, `roots`, `diffmat`, `bary`, norms, `minandmax`, `compose`, `restrict`, `Functional`), `funpy/trig/*` (`trigtech`, `transform`, `pts`, `ufuncs`, `operations`,
`simplify`), `funpy/ultra.py`, `funpy/colloc/ultraS/*`, `funpy/linalg/*` (`sparse`, `csr/csc` surgery, `bem`, `bemw`,
`schur`, `helpers`, `qr_solve`, `qr_chol`, `lucp`, `nullspace`, `fold_solve`, `gbit`), `funpy/support/tools.py`,
`funpy/vectorspaces/*`, `funpy/newton/*` (drivers, `deflation`, `FrechetDeflated*`, `DeflatedResidual` formulas,
`NewtonSeeker`). The doc comment of every definition gives file and lines.

Of the symbolic/code-generation part of `colloc` the modelled parts are the linearisation and second order forms (C101,
C103, C110), the text emitter (C112), the printer (C113) and the residual/Jacobian assembly (C131); not modelled are
`BoundaryConditionsSource`, the `Function` helpers, the preconditioners, `coeffsDiscretization.toFunction` and
`trigcolloc`. Also not modelled: plotting, `newton_new.py`
(does not parse into the package's API), `newton_gauss.py` beyond the operators it re-uses, random initialisation,
cython type declarations and wrappers.

Oracles (parameters of the model with their documented contract as hypothesis):
* eigenvalue solver of `roots` (`EigSpec`); LAPACK QR (`IsQR`), Cholesky (`IsChol`), SuperLU (`IsLU`), exact triangular
  solves; `argsort` of a permutation is its inverse;
* adaptive construction: the sampled function is an arbitrary function;
* states: an abstract type of functions with its operations as parameters;
* Newton drivers: residual, linear solver, inner product and callback are arbitrary functions.

## 5. Where the code does not have the property
Each of these is a theorem about the model (suffix `_fails`, or as named); the property is kept in
`properties.jsonl` as a user would expect it, with the theorem for the part that does hold marked `_partial`.

| property | finding | theorem |
|----|----|----|
| C09 | `diff(n=0)` differentiates once (tech) / raises (fun) | `C09_order_zero_*` |
| C14 | dividing by a constant `Fun` of array type is refused or wrong | `C14_array_constant_fails` |
| C21, C23 | chopping is not scale invariant; `simplify` may lengthen a series by one | `C21_scale_invariance_fails`, `C23_lengthens` |
| C25 | domain mismatch is detected only through one operand order | `C25_mismatch_accepted` |
| C26 | `deepcopy` loses `hscale` | `C26_deepcopy_hscale_lost` |
| C29 | linear root branch reports roots outside the domain | `C29_reports_outside` |
| C32 | `prolong_coeffs` returns the wrong length | `C32_prolong_coeffs_wrong_length` |
| C34, C36, C62, C64 | even lengths: odd-order derivative, integral, product, convolution alias the extreme mode | `C34_even_length_fails`, `C36_even_length_fails`, `C62_even_fails`, `C64_even_fails` |
| C35 | `cumsum` overwrites its argument, refuses non-zero mean | `C35_fails`, `C35_mutates_argument` |
| C37, C38 | `real`/`conj` of trig series, swapped argument of `roll` | `C37_*_fails`, `C38_fails` |
| C41 | multiplication operator drops entries for long series and small coefficients | `C41_large_fails` |
| C43 | `delete_row_csr` slices wrongly, `delete_cols_csc` with repeated indices | `C43_delete_row_fails`, `C43_delete_cols_repeated` |
| C44, C45, C47 | singular null solve, sign error of the bordered update, `detH` | `C44_null_singular_fails`, `C45_solve_fails`, `C47_fails` |
| C49–C51 | custom weights dropped, odd `p` norms signed, `real/imag` raise, `flatten` omits a parameter | `C49_*_fails`, `C50_fails`, `C51_fails` |
| C52 | `NameError` in `newton_standard`; `miter` exceeded by two; `giant_gbit` adds the simplified correction to the old iterate | `C52_*_fails` |
| C54 | deflated products raise `TypeError`; `DeflatedResidual` multiplies by `eta` twice; wrong Sherman-Morrison formula | `C54_*_fails` |
| C56 | `ultra2ultra` overwrites the caller's array | `C56_input_fails` |
| C57 | type-1 weights and single nodes | `C57_counterexample_*` |
| C59 | evaluation changes the object | `C59_evaluation_mutates` |
| C62 | `f*f` raises for trig series | `C62_square_raises` |
| C65 | `adjoint` of a quasi operator | `C65_adjoint_partial` |
| C70, C73, C75, C76 | sign ignores permutations; rank-deficient Cholesky order; `phi[q]`; `fold_solve` always raises | `C70_fails`, `C73_*_fails`, `C75_fails`, `C76_*_fails` |
| C77, C78 | `out=` differing from the left operand; `from_state`, shared namespaces | `C77_fails`, `C78_*_fails` |
| C81 | stand-alone `qnerr` stores the norm instead of its square | `C81_alone_fails` |
| C82 | `method='nleq'` always raises | `C82_nleq_fails` |
| C83 | simple mode fails for an exact initial guess | `C83_simple_fails` |
| C85 | `norm(T_16, 2)` is √2: the power is sampled on the grid of the function only; `absolute` raises above 513 coefficients | `C85_norm_fails`, `C85_abs_long_fails` |
| C86 | critical points outside the domain are used as candidates | `C86_fails` |
| C89 | `fun.compose` samples `op(f(·))` on `[-1,1]` instead of the domain: wrong on larger domains, raises if the domain does not contain `[-1,1]` | `C89_fails`, `C89_raises_fails` |
| C90 | `chebtech.compose` cuts its argument to nine coefficients (in place); so does the two-argument form, for both arguments | `C90_fails`, `C90_truncates`, `C90_two_fails`, `C90_two_truncates` |
| C91 | restricting a scalar function or splitting into several pieces raises | `C91_scalar_fails`, `C91_pieces_fails` |
| C92 | `Functional(f)` without `n` is not exact; weighted functionals of scalar functions cannot be applied | `C92_fails`, `C92_weighted_fails` |
| C93 | `qr` of a single function raises (no method `innerproduct`); of the zero function it is `nan`; unhappy objects raise because the sliced coefficients are not contiguous | `C93_one_column_fails`, `C93_zero_fails` |
| C94 | Even numbers of modes: products are wrong by a factor two in the highest mode. Integral terms ignore the integrand and all but the first coefficient. aggregation(1) has the wrong sign and scale. | C94_even_fails, C94_integrand_fails, C94_agg_derivative_fails |
| C96 | With one point the node is 0 whatever the domain, and every derivative raises. | C96_single_fails |
| C97 | A condition that does not mention the unknown raises instead of being reported as inconsistent (theorem C97_constant_raises); conditions for systems (two or more unknowns) call the compiled function with one argument and raise; not modelled further. | C97_constant_raises |
| C100 | In-place Newton drivers (newton_standard, qnerr) make the comparison of grids vacuous: the two compared states are the same object, so the second success is always reported as converged. A success is forgotten when a later grid fails. Success on the last grid is reported without any agreement. ChebOp.solve passes ntol= although the constructor reads tol=, so the tolerance of the Newton solves is always 1e-8. | C100_inplace_fails, C100_lost_success_fails, C100_unresolved_fails |
| C103 | (1) The order is max over i of the order of unknown i in equation i only, so in a system a higher derivative of another unknown is silently dropped from the Jacobian ([u + v'', v] has an order-0 Jacobian). (2) If the same integral occurs in two terms of the expanded derivative, each occurrence gets the collected coefficient: (u+1)*int(u) linearises to twice the nonlocal part. (3) Derivatives of p inside an integrand are dropped: int(x*u') linearises to zero. (4) IntegralOperatorSource.expr uses the name Integral which is not imported. | C103_linearize_partial, C103_scalar_partial, C103_differential, C103_expandTerms, C103_system_fails, C103_repeated_fails, C103_integrand_fails |
| C105 | diffmat(n, 3) flips the signs of the even instead of the odd entries and returns exactly minus the third derivative for every n >= 2; diffmat(1, 0) is 0 instead of the identity; the class trigcolloc itself cannot be used (it imports undefined names) | theorems ending in _fails |
| C95 | sums of two operators with integral terms give (c+c')∫(d+d')u; negation of an integral term leaves its sign unchanged or makes the block unusable; QuasiOp.__mul__ adds; blocks cannot be multiplied by numbers; derivative terms which only the right operand has are dropped silently | theorems ending in _fails |
| C106 | the position lives in the object: nested loops over the same object visit m pairs instead of m², a break in the inner loop makes the outer loop run for ever, zip(f, f) pairs neighbouring columns; a state whose functions have different numbers of columns raises | theorems ending in _fails |
| C99 | op(u) silently truncates F(u) to the number of coefficients of u: for u = x and F(u) = u^2 - 1/2 the result is the zero function (C99_fails). c*r for a Residual recurses forever (C99_rmul_fails). Results of Residual arithmetic have no equations: a later update leaves zeros (C99_forgets_fails). | theorems ending in _fails |
| C104 | after a compilation with a continuation parameter the compiled equations never change again (C104_frozen_fails, C104_eqn_fails: reassigned equations are silently ignored); op(state) ignores the non-free parameters of the state (C104_stale_fails); residual(u) depends on the resolution left behind by earlier evaluations (C104_residual_fails). | theorems ending in _fails |
| C107 | solve_null() is normalised differently in its two branches: for regular A the product with mat is (0,1), for singular A it is (0, b.phi) (C107_null_fails: (0,-1)). | theorems ending in _fails |
| C108 | brd_null_simp mixes the permutation convention of lucp with that of SuperLU: wrong result whenever a pivot permutation is not an involution (C108_lucp_fails). brd_null takes no absolute value of the last pivot: NameError (solve_null_sing undefined) for the regular matrix (-1) and for every singular matrix (C108_negative_fails). | theorems ending in _fails |
| C109 | happy() chops the raw coefficient vector (lowest wave number first), not the folded one it computes: the highest mode is never tested (cos(16 pi x) becomes the zero function, C109_highest_mode_fails) and negative wave numbers are treated as leading coefficients (exp(-10 pi i x) becomes zero, C109_negative_modes_fails). The keyword maxLength is ignored. | theorems ending in _fails |
| C110 | the adjoint form multiplies the coefficients by (-1)^o but does not differentiate them, so it is the adjoint only if no derivative of the second direction occurs (C110_adjoint_fails: u u'); without constraints (the default) compile(fold=True) raises; operators whose derivative has an integral raise NameError (Integral is not imported); dp for a parameter that is not in the equations raises or returns derivatives of the constraints; dxdp(u, up, pname) ignores pname. | theorems ending in _fails |
| C111 | the bases coeff, value and trigval can never be constructed (missing module, undefined name, wrong call), so deflation for ultraspherical problems always raises; trigspec needs the package directory itself on the path; coefficient vectors of systems are reshaped row-major and misread (C111_vector_fails); an even number of coefficients with unpaired mode gives a wrong L2 product (C111_even_fails). | theorems ending in _fails |
| C112 | user functions named like generated ones (f0, c0, ...) are silently rebound to the residual's function (C112_names_fails). | theorems ending in _fails |
| C113 | an unknown named like a function of sympy (gamma, beta, zeta, ...) is printed as that function of x and the unknown is ignored (C113_names_fails); integrals with limits are printed as antiderivatives or as convolutions with kernel None (C113_limits_fails, C113_limits_nonlinear_fails). | theorems ending in _fails |
| C114 | the spellings qn-err, nleqerr, giant-gbit and giantgbit, for which solve has branches, raise RuntimeError, qr raises AttributeError (C114_names_fails). | theorems ending in _fails |
| C115 | with two or more unknowns every boundary condition makes the construction raise, so a differential system on an interval always gets a matrix with fewer rows than columns (C115_bcs_fails); with one Fourier mode the blocks are all put below each other (C115_one_mode_fails). | theorems ending in _fails |
| C116 | deepcopy loses the non-local operators, n, n_min and eps because the keywords operator= and n_disc= are not those of the constructor (C116_copy_fails, C116_copy_options); writing without continuation parameter raises (C116_no_parameter_fails); reading loses constant functions, replaces operator names by the last function name, leaves bytes in colloc, ftype and cpar and never changes the discretisation class (C116_types_fails, C116_colloc_fails, C116_operators_fails); texts are cut silently (C116_long_fails). | theorems ending in _fails |
| C117 | after the first discretisation with a continuation parameter no assignment of equations or parameters has any effect (C117_stale_fails); after an exception for an unknown parameter the next call silently returns the old system (C117_exception_fails); the fold and bifurcation systems can never be discretised (C117_systems_fails). | theorems ending in _fails |
| C118 | for complex matrices the last factor tau is not zero and reflections do not have determinant -1: k is wrong and det() is not the determinant (C118_complex_fails). | theorems ending in _fails |
| C119 | n = 1 is not reversed although the first tile is for n >= 2 (C119_one_fails); points outside [0,1] stay uninitialised and only the part of f on [0,1] is shown, whatever the domain of f (C119_domain_fails, C119_half_fails). | theorems ending in _fails |
| C121 | the residual reaches down to mode n-2r, not n-r as the projection suggests (C121_sharp). | theorems ending in _fails |
| C122 | np.remainder(k+1, 1) is zero for every k (2 was meant), so for even n and even k>=4 the highest mode is dropped (C122_even_fails, C122_wrong_fails).  The module function has an unused first argument self. | theorems ending in _fails |
| C125 | with equally many coefficients, an even number, the unpaired mode is multiplied by an imaginary factor: adhesion(cos(pi x)) with the uniform kernel is imaginary at 0 (C125_even_fails); kernels.py itself cannot be imported inside the package (`from fun import Fun`); the domain of g is ignored | theorems ending in _fails |
| C126 | see C127 for the hypothesis on the multiplication matrices. | C127_large_fails |
| C127 | sptoeplitz_fast drops the upper diagonal when the constant Chebyshev coefficient of a coefficient function vanishes and n >= 100: u'' + x u = x^2 is then discretised wrongly for every n >= 100 and the solutions do not converge (C65_large_fails, C98_large_fails, C127_large_fails). | theorems ending in _fails |
| C128 | even numbers of modes are excluded (C94_even_fails); hypothesis that no entry is below the threshold of eliminate_zeros, satisfied by the example -u'' + u | theorems ending in _fails |
| C129 |  | theorems ending in _fails |
| C130 | the adjoint is only correct when all coefficients of positive order are constant (C130_constant_iff); it is wrong for the self-adjoint form (f u')' + h u announced in the documentation of quasi2diffmat, where the operator itself would be right (C130_selfadjoint_fails). linop() raises without boundary conditions (C130_no_constraints_fails) and, for trigspec, always (trigspec.reduce has no argument adjoint). The adjoint of the returned projection has the wrong shape (C130_rmatvec_fails). | theorems ending in _fails |
| C131 | the eigenvalues found in C131_found_partial may be dropped if |beta| <= tol, as C101 shows | theorems ending in _fails |
| C132 | entries below eps are dropped, so the result depends on the scale of the equation: every equation becomes singular after multiplication by a small number (C132_scale_fails). With an even number of modes the derivative of the aggregation operator annihilates the unpaired mode (C132_even_agg_fails). | theorems ending in _fails |
| C133 | the adaptive solver reports success for grids that are smaller than the right-hand side: the discretisations drop its tail and agree with each other (C133_unresolved_fails) | theorems ending in _fails |
| C134 | the clipped upper bound of n_disc is a power of two, so the last grid of a periodic problem can have an even number of modes, for which C94 fails (C134_clipped_grid_even) | theorems ending in _fails |
| C135 | kind=2 with one degree raises (spsolve returns a one-dimensional array without todense), and so do degrees that are all zero (C135_single_fails, C135_zeros_fails); the module's import of fun is broken at this commit | theorems ending in _fails |
| C136 | a failed iterate is returned silently (C136_failure_fails); a list of three values, the default ps=None, and equal end points raise (C136_lists_fails) | theorems ending in _fails |
| C137 | integral terms lack the factor b - a (C137_length_fails), item() raises (C137_item_fails), other coefficients are ignored (C137_nonconstant_fails) | theorems ending in _fails |
| C138 | giant_gbit adds the simplified correction to the old iterate (line 199) and so returns the start on linear problems with an accurate inner solver, reporting success (C138_accurate_fails, C138_linear_fails, C138_exact_fails) | theorems ending in _fails |
| C139 | p is ignored by solve and p=inf raises in the format string, tol= raises TypeError (C139_arguments_fails); the reported residual vanishes for an unresolved right-hand side (C139_residual_fails) | theorems ending in _fails |
| C140 | odd order and even n: the derivative matrix drops the mode -n/2, so u^(r) + int u = f has singular matrices for every even n (C140_odd_order_fails); the clipped grids of SolverAdaptive are even | theorems ending in _fails |
| C146 | Integrals are printed as their integrands, which is right only on domains of length 1; derivatives of expressions that contain x are printed as 0.0; with the default settings functions are not supported | C146_integral_fails, C146_derivative_fails, C146_settings_fails |
| C147 | random_decay divides only the random part by (1 + k)^2, so that all coefficients but the first are at least half the scale and tend to the scale | C147_decay_fails |
| C148 | f**1 and +f are f itself, so that changes in place of the result change f; 2**f is f**2 for periodic functions and a TypeError otherwise; functions with numbers (np.maximum(f, 0.5), f >= 0.5) raise; f == g is never true: np.all has no implementation, so that it raises for equal domains; f != g is true for f itself whenever it does not raise | C148_alias_fails, C148_rpower_fails, C148_rpower_value_fails, C148_number_fails, C148_eq_fails, C148_ne_fails |
| C149 | the lists of the caller are stored and changed in place: two solvers built from the same lists break each other (the other one then solves neither the old nor the new system), and the history theorem needs lists of its own for each solver | C149_shared_fails, C149_caller_fails |
