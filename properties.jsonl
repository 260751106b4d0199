{"id": "C01", "title": "Element-wise vector operations are exact and alias-safe", "statement": "neg, add, sub, axpy and scale on vectors of matching size store in the result object exactly f(old x[i], old y[i]) at every index i, whichever of the operands is the same object as the result; every other object keeps its contents, and no element outside the vectors is touched. The operators x + y, x - y, -x, alpha * x, x * alpha and scaled(alpha, x) return vectors with those elements, and x / alpha the products with 1 / alpha.", "quantifier": "all sizes, all element values of any type with any arithmetic, all aliasing patterns between operands and result", "why_tests_cant": "the size and the aliasing pattern are unbounded; tests fix three or ten elements and never pass the same object twice", "anchors": ["include/lalib/ops/vec_ops_core.hpp: __neg_core_simd, add_core, sub_core, axpy_core, scal_core", "include/lalib/ops/vec_ops.hpp: neg, add, sub, axpy, scale, operator+, operator-, operator*, operator/, scaled"]}
{"id": "C02", "title": "Size mismatch of vector operands is reported, and nothing is written", "statement": "add and sub on vectors of different size throw SizeMismatched(n1,n2) and leave every object unchanged; member DynVec::dot also throws. The operations declared noexcept (neg, axpy, free dot) never let that exception escape: they terminate the program on mismatch. If sizes match none of these reports an error.", "quantifier": "all pairs of sizes and contents", "why_tests_cant": "infinitely many size pairs, and 'nothing was written before the throw' is a statement about all partial states", "anchors": ["include/lalib/ops/vec_ops.hpp: __check_size, add, sub, neg, axpy, dot", "include/lalib/vec/dyn_vec.hpp: DynVec::__check_size, DynVec::dot"]}
{"id": "C03", "title": "The result vector is never written outside its bounds", "statement": "add/sub(DynVec,DynVec,DynVec& vr), the overloads of add/sub with a SizedVec operand and SizedVec::dot(DynVec) never access memory outside the objects passed in, for every combination of sizes.", "quantifier": "all triples of sizes", "why_tests_cant": "an out-of-bounds write may go unnoticed in a test run", "anchors": ["include/lalib/ops/vec_ops.hpp: add, sub (DynVec overloads)", "include/lalib/vec/sized_vec.hpp: SizedVec::dot(const DynVec&)"]}
{"id": "C04", "title": "Parallel element-wise loops are schedule-independent", "statement": "When an element-wise operation on 16 or more elements runs its iterations on several threads, every interleaving of the threads' reads and writes ends in the same memory as the sequential loop, even if the result object is one of the operands.", "quantifier": "all thread interleavings at single read/write granularity, all iteration orders, all sizes, all aliasing patterns", "why_tests_cant": "the number of interleavings is exponential and the scheduler picks one", "anchors": ["include/lalib/ops/vec_ops_core.hpp: __add_core_parallel, __sub_core_parallel, __neg_core_parallel, __axpy_core_parallel, add_core, sub_core"]}
{"id": "C05", "title": "dot is the exact inner product for any reduction order", "statement": "In exact arithmetic dot(x,y) equals sum_i x[i]*y[i] for every non-empty pair of equal-size vectors and for every way the SIMD reduction splits and re-associates the sum; it is symmetric and bilinear. Empty vectors give 0.", "quantifier": "all sizes including 0, all values in a commutative ring, all reduction trees", "why_tests_cant": "reduction shapes and sizes are unbounded", "anchors": ["include/lalib/ops/vec_ops_core.hpp: __dot_core_simd, dot_core", "include/lalib/vec/dyn_vec.hpp: DynVec::dot", "include/lalib/vec/sized_vec.hpp: SizedVec::dot"]}
{"id": "C06", "title": "norm2 is the Euclidean norm", "statement": "norm2(x) is non-negative, norm2(x)^2 = dot(x,x), norm2(x)=0 exactly when every element is 0 (0 for the empty vector), and norm2(a*x)=|a|*norm2(x).", "quantifier": "all sizes and real values", "why_tests_cant": "quantifies over all real vectors", "anchors": ["include/lalib/ops/vec_ops_core.hpp: __norm2_core_simd, norm2_core", "include/lalib/vec/dyn_vec.hpp: DynVec::norm2"]}
{"id": "C07", "title": "cross products", "statement": "cross on 3-vectors stores the vector product of the original operands even when the result object is an operand; it is antisymmetric, orthogonal to both operands and satisfies Lagrange's identity; cross_acc adds it to the previous contents of the result; cross on 2-vectors is the 2x2 determinant. DynVec arguments of a wrong length fail the assertion; when assertions are compiled out, an argument that is too short is accessed out of bounds.", "quantifier": "all operand values, all aliasing patterns, all DynVec lengths", "why_tests_cant": "identities over all values and aliasings", "anchors": ["include/lalib/ops/vec_ops_core.hpp: cross2_core, cross3_core, cross3_acc_core", "include/lalib/ops/vec_ops.hpp: cross, cross_acc"]}
{"id": "C08", "title": "Scalar multiplication and division operators", "statement": "a*x, x*a and scaled(a,x) all return the vector with elements a*x[i] and leave x unchanged; x/a multiplies by the reciprocal, so (x/a)*a = x for a != 0; scaling is a module action: a*(b*x) = (a*b)*x, a*(x+y) = a*x+a*y.", "quantifier": "all sizes, scalars and elements", "why_tests_cant": "algebraic laws over all values", "anchors": ["include/lalib/ops/vec_ops.hpp: operator*, operator/, scaled", "include/lalib/ops/ops_traits.hpp: reciprocal"]}
{"id": "C09", "title": "Dense matrices: reads see the last write and nothing else", "statement": "For DynMat and SizedMat, after writing v at (i,j) reading (i,j) gives v and every other in-range position and the shape are unchanged; every in-range access stays inside the storage, and iteration order is row-major.", "quantifier": "all shapes, in-range index pairs, values, and all sequences of writes", "why_tests_cant": "all shapes and index pairs; sequences of writes are unbounded", "anchors": ["include/lalib/mat/dyn_mat.hpp: DynMat::operator(), at, mut_at", "include/lalib/mat/sized_mat.hpp: SizedMat::operator(), at, mut_at"]}
{"id": "C10", "title": "Factories build the documented matrix", "statement": "filled(v) has v everywhere; diag has the given values on the diagonal and 0 elsewhere; identity has 1 and 0; uninit has the requested shape; SizedMat and SizedVec built from a vector or initializer list throw runtime_error exactly when the element count differs from the compile-time size and otherwise hold the elements in row-major order.", "quantifier": "all shapes and data lengths", "why_tests_cant": "all shapes; the accept/reject boundary over all lengths", "anchors": ["include/lalib/mat/dyn_mat.hpp: DynMat::uninit, filled, diag, identity", "include/lalib/mat/sized_mat.hpp: SizedMat ctors, filled, diag, identity", "include/lalib/vec/sized_vec.hpp: SizedVec ctors, filled", "include/lalib/vec/dyn_vec.hpp: DynVec::uninit, filled"]}
{"id": "C11", "title": "DynMat rejects data whose length is not rows*columns", "statement": "Constructing DynMat(n,m,data) with data.size() != n*m is reported to the caller; a constructed DynMat can be read at every in-range position.", "quantifier": "all n, m and data lengths", "why_tests_cant": "over-short data only misbehaves on later accesses", "anchors": ["include/lalib/mat/dyn_mat.hpp: DynMat(size_t,size_t,const std::vector<T>&)"]}
{"id": "C12", "title": "Dense matrix-vector product, including in-place", "statement": "mul(alpha,A,x,beta,y) stores alpha*A*x + beta*y computed from the original x and y for every shape, also when x and y are the same vector; A*x returns the product; nothing else is modified and no access is out of bounds.", "quantifier": "all shapes n x m including 0, all values in a commutative ring, x=y or x!=y", "why_tests_cant": "unbounded shapes; in-place use is a distinct code path", "anchors": ["include/lalib/ops/mat_vec_ops_core.hpp: __mul_core_simd, mul_core", "include/lalib/ops/mat_vec_ops.hpp: mul, operator*"]}
{"id": "C13", "title": "Dense matrix-matrix product, including in-place", "statement": "mul(alpha,A,B,beta,C) stores alpha*A*B + beta*C computed from the original A, B and C for every conforming shape, also when C is the same object as A, as B or as both; A*B returns the product.", "quantifier": "all shapes, all values in a commutative ring, all aliasing patterns of C", "why_tests_cant": "unbounded shapes and aliasing", "anchors": ["include/lalib/ops/mat_mat_ops_core.hpp: __mul_core_simd, mul_core", "include/lalib/ops/mat_mat_ops.hpp: mul, operator*"]}
{"id": "C14", "title": "Matrix add, sub, negate and scale are element-wise", "statement": "add/sub/+/-/scale/unary minus/scalar* on dense matrices of equal shape act element by element with the original operand values, keep the shape, and leave operands other than the result unchanged; a shape mismatch of dynamic matrices trips the assertion.", "quantifier": "all shapes, values and aliasing patterns", "why_tests_cant": "unbounded shapes and aliasing", "anchors": ["include/lalib/ops/mat_mat_ops.hpp: add, sub, operator+, operator-", "include/lalib/ops/mat_ops.hpp: scale, operator*, operator-"]}
{"id": "C15", "title": "Products obey the ring laws users compute with", "statement": "(A*B)*x = A*(B*x), (A*B)*C = A*(B*C), I*A = A = A*I, A*(x+y) = A*x + A*y in exact arithmetic, where every * and + is the library's operator.", "quantifier": "all conforming shapes and values", "why_tests_cant": "algebraic laws over all matrices", "anchors": ["include/lalib/ops/mat_mat_ops.hpp: operator*", "include/lalib/ops/mat_vec_ops.hpp: operator*", "include/lalib/mat/dyn_mat.hpp: DynMat::identity"]}
{"id": "C16", "title": "2x2 inversion", "statement": "invert(A,R), invert(A) in place and inverted(A) produce the same matrix R, and A*R = R*A = identity exactly when the determinant is non-zero; inverted leaves A unchanged; a zero determinant produces non-finite values, never a finite wrong answer.", "quantifier": "all 2x2 matrices over a field, R distinct from A or the same object", "why_tests_cant": "all values; the aliasing branch is separate code", "anchors": ["include/lalib/mat.hpp: invert, inverted"]}
{"id": "C17", "title": "BLAS and internal backends agree", "statement": "With the BLAS backend mul on matrices and vectors stores the same result as the internal backend for all shapes and aliasing patterns, given CBLAS behaves per its specification.", "quantifier": "all shapes, values, aliasing patterns", "why_tests_cant": "needs all shapes (leading-dimension errors vanish on square matrices)", "anchors": ["include/lalib/ops/mat_mat_ops_core.hpp: mul_core<float>, mul_core<double>", "include/lalib/ops/mat_vec_ops_core.hpp: mul_core<float>, mul_core<double>"]}
{"id": "C18", "title": "Tri-diagonal matrices store exactly the three diagonals", "statement": "For SizedTriDiagMat and DynTriDiagMat reading (i,j) inside the band returns the stored element, reading outside the band returns 0; writing inside the band changes exactly that element; writing outside the band throws and changes nothing.", "quantifier": "all n, all index pairs, all values", "why_tests_cant": "all index pairs; index arithmetic uses unsigned wrap-around at j=0", "anchors": ["include/lalib/mat/dyn_mat.hpp: DynTriDiagMat::operator(), at, mut_at", "include/lalib/mat/sized_mat.hpp: SizedTriDiagMat::operator(), at, mut_at"]}
{"id": "C19", "title": "Hessenberg matrix construction and element access", "statement": "HessenbergMat(data) succeeds exactly when data.size() is 0 or s(s+3)/2-1 for some s>=1, the shape is then s x s, otherwise invalid_argument is thrown; every in-range (i,j) with i<=j+1 addresses its own element inside the storage, other positions read 0 and throw on write; a write changes exactly one element.", "quantifier": "all data sizes, all index pairs", "why_tests_cant": "the acceptance test is a perfect-square test over all sizes; packed index formulas must be injective for all i,j", "anchors": ["include/lalib/mat/dyn_mat.hpp: HessenbergMat"]}
{"id": "C20", "title": "Growing a Hessenberg matrix keeps existing elements", "statement": "extend_with_zero and extend_with add one row and one column, keep every element of the old square and place the new elements as documented; extend_with throws invalid_argument for a wrong length and then changes nothing; get_col returns exactly the stored elements of the column; all this holds after any sequence of extensions and writes starting from an accepted matrix.", "quantifier": "all histories of construct/extend/write operations", "why_tests_cant": "histories are unbounded", "anchors": ["include/lalib/mat/dyn_mat.hpp: HessenbergMat::extend_with_zero, extend_with, get_col"]}
{"id": "C21", "title": "Upper-triangular packed matrix", "statement": "DynUpperTriMat(data) accepts exactly triangular-number sizes (any other size is reported to the caller); in-range (i,j) with i<=j address distinct elements in storage, positions below the diagonal read 0 and throw on write; extending keeps old elements, after any history of operations.", "quantifier": "all data sizes, index pairs, and operation histories", "why_tests_cant": "as C19/C20", "anchors": ["include/lalib/mat/dyn_mat.hpp: DynUpperTriMat"]}
{"id": "C22", "title": "Back substitution solves the triangular system", "statement": "back_sub(y) on an n x n upper-triangular R with non-zero diagonal replaces y by the unique x with R x = y; a vector of the wrong size throws invalid_argument and is unchanged.", "quantifier": "all n, all R with non-zero diagonal over a field, all y", "why_tests_cant": "unbounded n and values", "anchors": ["include/lalib/mat/dyn_mat.hpp: DynUpperTriMat::back_sub"]}
{"id": "C23", "title": "Packed lower-triangular and Hermitian storage", "statement": "DynHermiteMat/SizedHermiteMat present a (conjugate-)symmetric matrix: (i,j) and (j,i) refer to the same packed element and distinct unordered pairs to distinct elements; DynLowerTriMat/SizedLowerTriMat read 0 above the diagonal; into_lower_mat keeps the lower elements.", "quantifier": "all n, all index pairs", "why_tests_cant": "packed index injectivity for all n", "anchors": ["include/lalib/mat/dyn_mat.hpp: DynLowerTriMat, DynHermiteMat", "include/lalib/mat/sized_mat.hpp: SizedLowerTriMat, SizedHermiteMat"]}
{"id": "C24", "title": "COO construction preserves the given entries", "statement": "SpCooMat(val,rows,cols) throws runtime_error exactly when the three lengths differ; otherwise reading (i,j) returns the given value for every given position (positions pairwise distinct) and 0 elsewhere, independent of the input order and of how the sort breaks ties; the stored triplets are a permutation of the input sorted by (row, column).", "quantifier": "all lengths, contents and input orders, every admissible outcome of std::sort", "why_tests_cant": "all permutations; std::sort is unstable and unspecified on ties", "anchors": ["include/lalib/mat/sp_mat.hpp: SpCooMat ctors, _sort, operator(), at"]}
{"id": "C25", "title": "COO element update", "statement": "mut_at(i,j) on a stored position lets the caller replace exactly that entry; on a position that is not stored it throws out_of_range and nothing changes.", "quantifier": "all matrices, index pairs, values", "why_tests_cant": "all index pairs and contents", "anchors": ["include/lalib/mat/sp_mat.hpp: SpCooMat::mut_at"]}
{"id": "C26", "title": "COO in-place addition", "statement": "After A += B (positions distinct within each), A(i,j) equals old A(i,j) + B(i,j) for every (i,j), B is unchanged, the stored positions stay distinct and sorted, no access is out of bounds, iterators are never invalidated, and the loop terminates. A += A doubles A.", "quantifier": "all pairs of COO matrices, including empty rows, empty matrices and A aliased with B", "why_tests_cant": "the merge has many boundary cases (rows present on one side only) over unbounded inputs", "anchors": ["include/lalib/mat/sp_mat.hpp: SpCooMat::operator+="]}
{"id": "C27", "title": "COO + and - operators", "statement": "A+B and A-B return a new matrix with A(i,j)+B(i,j) resp. A(i,j)-B(i,j) for all (i,j) and leave A and B unchanged.", "quantifier": "all pairs of COO matrices", "why_tests_cant": "as C26", "anchors": ["include/lalib/ops/sp_mat_ops.hpp: operator+, operator-", "include/lalib/ops/mat_ops.hpp: operator-(SpCooMat)"]}
{"id": "C28", "title": "COO to CSR conversion preserves the matrix", "statement": "SpMat(coo) has the same value at every (i,j) with i in range, the same nnz, as many rows as coo.shape(), and a well-formed row pointer array (starts at 0, non-decreasing, ends at nnz, one more than the number of rows) with strictly increasing columns in every row if the positions are distinct, including matrices with empty rows; the conversion always terminates.", "quantifier": "all COO matrices", "why_tests_cant": "empty rows and sizes unbounded", "anchors": ["include/lalib/mat/sp_mat.hpp: _convert_coo_crs, SpMat(const SpCooMat&), SpMat(SpCooMat&&)"]}
{"id": "C29", "title": "CSR element access and update", "statement": "For a well-formed CSR matrix with distinct columns per row, (i,j) returns the stored value or 0, mut_at changes exactly the addressed stored element and throws out_of_range (changing nothing) for an unstored position; the raw constructor throws exactly when value and column counts differ. For a row index that is not below the number of rows all three accesses read outside the row pointers (no out_of_range is thrown).", "quantifier": "all well-formed CSR matrices, all column indices, all row indices", "why_tests_cant": "unbounded", "anchors": ["include/lalib/mat/sp_mat.hpp: SpMat ctors, operator(), at, mut_at"]}
{"id": "C30", "title": "Sparse unit matrices are the identity", "statement": "SpCooMat::unit(n) and SpMat::unit(n) read 1 on the diagonal and 0 elsewhere, have n stored elements, and unit(n)*x = x.", "quantifier": "all n", "why_tests_cant": "all n", "anchors": ["include/lalib/mat/sp_mat.hpp: SpCooMat::unit, SpMat::unit"]}
{"id": "C31", "title": "CSR matrix-vector product", "statement": "mul(alpha,A,x,beta,y) on a well-formed CSR matrix stores alpha*A*x + beta*y computed from the original x and y, also when x and y are the same vector; A*x returns the product; it agrees with the dense product of the same matrix.", "quantifier": "all CSR matrices and values in a commutative ring, x=y or x!=y", "why_tests_cant": "unbounded; aliasing is not tested for the sparse product", "anchors": ["include/lalib/ops/mat_vec_ops_core.hpp: _sp_mul_core", "include/lalib/ops/mat_vec_ops.hpp: mul(SpMat), operator*(SpMat)"]}
{"id": "C32", "title": "Sparse scaling and negation", "statement": "scale, scalar* and unary minus on COO and CSR matrices multiply every element, keep the stored positions, and the value-returning forms leave the operand unchanged.", "quantifier": "all sparse matrices and scalars", "why_tests_cant": "unbounded", "anchors": ["include/lalib/ops/mat_ops.hpp: scale, operator*, operator- (SpCooMat, SpMat)"]}
{"id": "C33", "title": "shape() of sparse matrices", "statement": "shape() returns the smallest (rows, columns) that contains every stored position (CSR: number of rows as given by the row pointers), for every sparse matrix including one with no stored element.", "quantifier": "all sparse matrices", "why_tests_cant": "the empty case is undefined behaviour a test may not notice", "anchors": ["include/lalib/mat/sp_mat.hpp: SpCooMat::shape, SpMat::shape"]}
{"id": "C34", "title": "Tri-diagonal solver", "statement": "TriDiag::solve_linear(b,x) stores x with M x = b for every tri-diagonal M whose elimination pivots are non-zero, for vectors and for every column of a matrix right-hand side, also when b and x are the same object, for every n >= 1; M is unchanged so the solver can be reused; diagonally dominant matrices always qualify.", "quantifier": "all n>=1, all values over a field, all numbers of right-hand sides, aliasing b=x", "why_tests_cant": "unbounded n; n=1 and in-place are boundary cases", "anchors": ["include/lalib/solver/internal/tdma.hpp: tdma", "include/lalib/solver/tri_diag.hpp: TriDiag::solve_linear"]}
{"id": "C35", "title": "Cholesky factorisation", "statement": "For a symmetric positive-definite A the factor returned by DynCholeskyFactorization (lower part) and DynTriCholeskyFactorization satisfies L*L^T = A with positive diagonal, both storages give the same L, and the strict upper part of the square storage is left untouched.", "quantifier": "all n, all symmetric positive-definite matrices in exact real arithmetic", "why_tests_cant": "unbounded n and values", "anchors": ["include/lalib/solver/internal/cholesky_decomposition.hpp: cholesky_decomposition, index", "include/lalib/solver/cholesky_factorization.hpp: DynCholeskyFactorization, DynTriCholeskyFactorization"]}
{"id": "C36", "title": "Cholesky rejects matrices that are not positive definite", "statement": "Constructing a Cholesky factorisation from a symmetric matrix that is not positive definite throws runtime_error; constructing it from a positive definite one does not.", "quantifier": "all n, all symmetric matrices", "why_tests_cant": "the failing pivot can be at any index", "anchors": ["include/lalib/solver/internal/cholesky_decomposition.hpp: cholesky_decomposition (return value)", "include/lalib/solver/cholesky_factorization.hpp: DynTriCholeskyFactorization ctor, DynCholeskyFactorization ctor"]}
{"id": "C37", "title": "Cholesky solve", "statement": "solve_linear / solve_linear_mut of a factorised positive-definite A return x with A x = b for vectors and for each column of a matrix right-hand side; solve_linear leaves b unchanged, both forms agree, and neither modifies the factorisation.", "quantifier": "all n, right-hand sides, numbers of columns", "why_tests_cant": "unbounded", "anchors": ["include/lalib/solver/internal/cholesky_decomposition.hpp: cholesky_linear", "include/lalib/solver/cholesky_factorization.hpp: solve_linear, solve_linear_mut"]}
{"id": "C38", "title": "Modified (square-root free) Cholesky factorisation", "statement": "DynModCholeskyFactorization of a symmetric A throws runtime_error exactly when elimination meets a zero pivot (a leading principal minor is zero) and otherwise stores L with sum_k L(i,k) L(j,k)/L(k,k) = A(i,j) for all j <= i, leaving the strict upper part untouched; it accepts every positive-definite matrix.", "quantifier": "all n, all symmetric matrices over a field", "why_tests_cant": "unbounded", "anchors": ["include/lalib/solver/internal/cholesky_decomposition.hpp: mod_cholesky_decomposition", "include/lalib/solver/cholesky_factorization.hpp: DynModCholeskyFactorization ctor"]}
{"id": "C39", "title": "Modified Cholesky solve", "statement": "solve_linear / solve_linear_mut return x with A x = b for every accepted symmetric A (also indefinite), for every column of the right-hand side, in place or not.", "quantifier": "all n, right-hand sides, numbers of columns, aliasing", "why_tests_cant": "unbounded", "anchors": ["include/lalib/solver/internal/cholesky_decomposition.hpp: mod_cholesky_linear", "include/lalib/solver/cholesky_factorization.hpp: DynModCholeskyFactorization::solve_linear"]}
{"id": "C40", "title": "ILU(0) reproduces the matrix on its sparsity pattern", "statement": "If construction of Ilu from a square A succeeds, the stored factors L (unit lower) and U (upper) satisfy (L U)(i,j) = A(i,j) wherever A(i,j) != 0 and are 0 wherever A(i,j) = 0, for dense, COO and CSR storage alike; no access outside the matrix happens and no exception other than runtime_error is thrown.", "quantifier": "all n, all square matrices over a field, three storage classes", "why_tests_cant": "unbounded; defines what an incomplete factorisation is", "anchors": ["include/lalib/solver/ilu.hpp: internal::_decomp_lu_inplace, Ilu ctor"]}
{"id": "C41", "title": "ILU reports singular matrices", "statement": "Constructing Ilu from a singular matrix (or one whose incomplete factorisation has a zero pivot) throws runtime_error.", "quantifier": "all n, all matrices", "why_tests_cant": "a zero pivot may appear anywhere, in particular in the last row", "anchors": ["include/lalib/solver/ilu.hpp: internal::_decomp_lu_inplace, Ilu ctor"]}
{"id": "C42", "title": "ILU solve inverts the stored factors", "statement": "solve(b) returns x with L U x = b for the stored factors whenever the diagonal of U has no zero; b is unchanged.", "quantifier": "all n, factors and right-hand sides", "why_tests_cant": "unbounded", "anchors": ["include/lalib/solver/ilu.hpp: Ilu::solve"]}
{"id": "C43", "title": "ILU is exact when there is no fill-in", "statement": "If elimination of A creates no entry outside A's pattern (in particular if A has no zero entry, or is tri-diagonal with non-zero band) then L U = A and solve(b) returns the solution of A x = b.", "quantifier": "all n, all such matrices", "why_tests_cant": "unbounded", "anchors": ["include/lalib/solver/ilu.hpp: Ilu ctor, Ilu::solve"]}
{"id": "C44", "title": "Gram-Schmidt orthogonalisation", "statement": "cgs on linearly independent vectors leaves pairwise orthogonal vectors with the same leading spans (vector j changes only by a combination of the earlier ones), keeps the first vector, and never divides by zero; for m=0 vectors the call is rejected.", "quantifier": "all numbers of vectors and dimensions, all linearly independent real families", "why_tests_cant": "unbounded families", "anchors": ["include/lalib/ops/orthogonal.hpp: cgs"]}
{"id": "C45", "title": "GMRES returns a solution within tolerance", "statement": "For a non-singular A accepted by the preconditioner with non-zero pivots, b != 0 and tol > 0, solve(b) in exact arithmetic performs at most n iterations, never fails, and returns x whose preconditioned residual (LU)^{-1}(b - A x) has Euclidean norm < tol. (The number of iterations is that of C51.)", "quantifier": "all n, matrices, right-hand sides, tolerances", "why_tests_cant": "an iteration over unbounded dimensions with breakdown cases", "anchors": ["include/lalib/solver/gmres.hpp: Gmres::solve, _arnoldi, _givens_rot"]}
{"id": "C46", "title": "GMRES bookkeeping never leaves its data structures", "statement": "During GMRES the Hessenberg matrix, triangular factor, rotation lists, residual vector and basis always have consistent sizes: every internal assertion holds, no exception is thrown and no out-of-range access happens, for any matrix and right-hand side of matching size on which the arithmetic stays finite.", "quantifier": "all iterations, all inputs", "why_tests_cant": "all iteration counts", "anchors": ["include/lalib/solver/gmres.hpp: Gmres::solve, _arnoldi, _givens_rot", "include/lalib/mat/dyn_mat.hpp: HessenbergMat::get_col, DynUpperTriMat::extend_with"]}
{"id": "C47", "title": "Loops with 32-bit counters terminate and cover every index", "statement": "The element loops of the library (written with a 32-bit unsigned counter compared with a size_t bound) visit every index below the bound exactly once and terminate for every size the API accepts.", "quantifier": "all sizes up to 2^64-1", "why_tests_cant": "sizes above 2^32 cannot be tried in a unit test", "anchors": ["include/lalib/ops/vec_ops_core.hpp: all loops 'for (auto i = 0u; i < size; ++i)'", "include/lalib/solver/internal/cholesky_decomposition.hpp: 'for (int32_t i = n - 1; ...)'"]}
{"id": "C48", "title": "Dense, COO and CSR versions of one matrix behave alike in the solvers", "statement": "Building the ILU preconditioner from the dense, COO or CSR storage of one and the same square matrix gives the same accept/reject outcome, the same factors at every position and the same solve results.", "quantifier": "all square matrices and right-hand sides", "why_tests_cant": "relates three implementations over all inputs", "anchors": ["include/lalib/solver/ilu.hpp: Ilu", "include/lalib/mat/sp_mat.hpp: SpCooMat, SpMat", "include/lalib/mat/dyn_mat.hpp: DynMat"]}
{"id": "C49", "title": "COO matrices stay well-formed under every history of operations", "statement": "After any sequence of construction, element updates, scaling, negation and += (inside its safe domain) a COO matrix has equally long arrays sorted by (row,column), with distinct positions if every input had distinct positions.", "quantifier": "all operation histories", "why_tests_cant": "histories are unbounded", "anchors": ["include/lalib/mat/sp_mat.hpp: SpCooMat", "include/lalib/ops/mat_ops.hpp: scale, operator-"]}
{"id": "C50", "title": "Copies and value-returning operators do not disturb their operands", "statement": "operator+, operator-, operator*, unary minus, scaled, inverted and solve_linear on any vector or matrix type leave every operand bit-for-bit unchanged.", "quantifier": "all values and sizes", "why_tests_cant": "all operand values", "anchors": ["include/lalib/ops/vec_ops.hpp: operator+, operator-", "include/lalib/ops/mat_mat_ops.hpp: operator*", "include/lalib/solver/cholesky_factorization.hpp: solve_linear"]}
{"id": "C51", "title": "GMRES returns the minimal-residual vector of the first Krylov space that is good enough", "statement": "Under the conditions of C45 the returned vector lies in the span of (LU)^{-1}b, ((LU)^{-1}A)(LU)^{-1}b, ..., ((LU)^{-1}A)^{k-1}(LU)^{-1}b for some 1 <= k <= n, its preconditioned residual is the smallest of that space, and no smaller number of these vectors (>= 1) allows a residual below the tolerance; dense and CSR storage give the same vector.", "quantifier": "all n, matrices, right-hand sides, tolerances", "why_tests_cant": "an optimality statement over a vector space, for every number of iterations", "anchors": ["include/lalib/solver/gmres.hpp: Gmres::solve, _arnoldi, _givens_rot"]}
{"id": "C52", "title": "A tri-diagonal solver object can be used again", "statement": "With the LAPACK backend every call of TriDiag::solve_linear on one solver object solves the system of the matrix the object was constructed with: the first call, with vector or matrix right-hand side, for every non-singular matrix of size n >= 1, and each later call too.", "quantifier": "all n >= 1, all non-singular tri-diagonal matrices, all right-hand sides, any number of calls", "why_tests_cant": "needs every matrix and every sequence of calls; the tests construct a solver and call it once", "anchors": ["include/lalib/solver/tri_diag.hpp: TriDiag::solve_linear (LAPACK branches)", "include/lalib/solver/lapack/gtsv.hpp: gtsv"]}
{"id": "C53", "title": "The internal and the LAPACK backend give the same results", "statement": "In exact arithmetic the tri-diagonal solver and the Cholesky factorisation and its solves have the same outcome (result, exception) whether or not LALIB_LAPACK_BACKEND is defined.", "quantifier": "all sizes, matrices, right-hand sides", "why_tests_cant": "two builds of the library would have to be compared on all inputs", "anchors": ["include/lalib/solver/tri_diag.hpp: TriDiag::solve_linear", "include/lalib/solver/cholesky_factorization.hpp: DynTriCholeskyFactorization, DynCholeskyFactorization", "include/lalib/solver/lapack/potr.hpp: potrf, potrs"]}
{"id": "C54", "title": "The level-1 BLAS backend gives what the internal kernels give", "statement": "In exact arithmetic axpy, scale, dot and norm2 have the same outcome whether or not LALIB_BLAS_BACKEND is defined.", "quantifier": "all sizes, all values, aliased or not", "why_tests_cant": "sizes beyond 2^31 cannot be allocated in a unit test", "anchors": ["include/lalib/ops/vec_ops_core.hpp: axpy_core, dot_core, scal_core, norm2_core (BLAS branches)"]}
{"id": "C55", "title": "Results do not depend on storage, aliasing or grouping, in any arithmetic", "statement": "The matrix products, triangular, Cholesky, ILU and tri-diagonal kernels perform the same operations on the same operands in the same order whatever the storage class (square or packed; dense, COO or CSR), whether the result overwrites an operand or not, and whether a right-hand side is solved alone or as a column of a matrix. So the results are equal bit for bit, also in rounded arithmetic. Each result is the value of a stated expression.", "quantifier": "all sizes, all values, all scalar types with any operations", "why_tests_cant": "equality of two code paths on all inputs; tests compare with a tolerance", "anchors": ["include/lalib/ops/mat_vec_ops_core.hpp: mul_core, _sp_mul_core", "include/lalib/ops/mat_mat_ops_core.hpp: mul_core", "include/lalib/mat/dyn_mat.hpp: back_sub", "include/lalib/solver/internal/cholesky_decomposition.hpp: cholesky_decomposition, cholesky_linear, mod_cholesky_decomposition, mod_cholesky_linear", "include/lalib/solver/ilu.hpp: Ilu", "include/lalib/solver/internal/tdma.hpp: tdma"]}
{"id": "C56", "title": "Error bounds of inner product and norm in floating point", "statement": "With operations that round with relative error at most u, dot of n >= 1 terms is within gam(n) * sum |x_i y_i| of the exact value and norm2 is within a factor 1 +- gam(n+1) of the exact norm, where gam(k) = (1-u)^-k - 1; for every order of summation a SIMD reduction may choose.", "quantifier": "all n, all vectors, all roundings, all reduction trees", "why_tests_cant": "a worst case over all inputs and all orders of summation", "anchors": ["include/lalib/ops/vec_ops_core.hpp: dot_core, norm2_core", "include/lalib/ops/vec_ops.hpp: dot", "include/lalib/vec/dyn_vec.hpp: DynVec::dot, norm2", "include/lalib/vec/sized_vec.hpp: SizedVec::dot, norm2"]}
{"id": "C57", "title": "Error bounds of the matrix products in floating point", "statement": "Every entry of alpha A x + beta y, A x, alpha A B + beta C, A B and of the sparse product is within gam(k) times the sum of the absolute values of its terms of the exact value, with k the number of terms, plus 2 where alpha and beta occur; for a sparse matrix k counts the stored entries of the row.", "quantifier": "all shapes, all values, all roundings, all storage classes", "why_tests_cant": "a worst case over all inputs", "anchors": ["include/lalib/ops/mat_vec_ops_core.hpp: mul_core, _sp_mul_core", "include/lalib/ops/mat_mat_ops_core.hpp: mul_core", "include/lalib/ops/mat_vec_ops.hpp: mul, operator*", "include/lalib/ops/mat_mat_ops.hpp: mul, operator*"]}
{"id": "C58", "title": "Back substitution is backward stable", "statement": "The computed solution of an upper triangular system with non-zero diagonal is the exact solution of a system whose matrix differs, entry by entry, by a relative error of at most gam(n).", "quantifier": "all n, all non-singular triangular matrices, all right-hand sides, all roundings", "why_tests_cant": "a worst case over all inputs", "anchors": ["include/lalib/mat/dyn_mat.hpp: DynUpperTriMat::back_sub"]}
{"id": "C59", "title": "Cholesky in floating point: when it succeeds, and how good the solution is", "statement": "For a symmetric matrix with positive first diagonal entry: if the constructor succeeds, the product of the computed factors differs from A by at most gam(2n+2) sqrt(a_ii a_jj), and computed solutions solve a system with A changed by at most gam(4n+2) sqrt(a_ii a_jj) exactly, one or several right-hand sides; the constructor succeeds whenever A, scaled to unit diagonal, has smallest eigenvalue above n gam(6n+6), and throws whenever that is below -n gam(2n+2). The modified factorisation has a bound in terms of its factors.", "quantifier": "all n, all symmetric matrices, all right-hand sides, both storages, all roundings", "why_tests_cant": "a worst case over all inputs; the decision to throw near singular matrices", "anchors": ["include/lalib/solver/cholesky_factorization.hpp: DynTriCholeskyFactorization, DynCholeskyFactorization, DynModCholeskyFactorization", "include/lalib/solver/internal/cholesky_decomposition.hpp: cholesky_decomposition, cholesky_linear, mod_cholesky_decomposition, mod_cholesky_linear"]}
{"id": "C60", "title": "The tri-diagonal solver in floating point", "statement": "Whenever the solver finishes, its result solves exactly a system with a matrix changed by at most gam(4) times the computed pivots and entries. If the matrix is diagonally dominant by rows (with a margin of two roundings) it does finish and every entry is changed by a relative error of at most 3 gam(5), independent of n.", "quantifier": "all n >= 2, all tri-diagonal matrices, all right-hand sides, all roundings", "why_tests_cant": "a worst case over all inputs, with a bound that does not grow with n", "anchors": ["include/lalib/solver/tri_diag.hpp: TriDiag::solve_linear", "include/lalib/solver/internal/tdma.hpp: tdma"]}
{"id": "C61", "title": "Incomplete LU in floating point", "statement": "On the pattern of A the product of the computed factors is A up to gam(n) times the product of their absolute values; solving with them gives the exact solution of a system whose matrix L U is changed by at most gam(2n) times the product of the absolute values.", "quantifier": "all n, all matrices, dense, COO and CSR storage, all right-hand sides, all roundings", "why_tests_cant": "a worst case over all inputs", "anchors": ["include/lalib/solver/ilu.hpp: Ilu ctor, _decomp_lu_inplace, Ilu::solve"]}
{"id": "C62", "title": "Products of integers are exact in binary floating point", "statement": "With p significant bits, round to nearest even (double: p = 53), integer vectors and matrices give exact dot, gemv, gemm and sparse products, as long as the sum of the absolute values of the terms of each result is at most 2^p, for any order of summation; norm2 is then the correctly rounded square root.", "quantifier": "all shapes, all integer data within the bound, all p >= 1", "why_tests_cant": "all data up to the limit; tests use small integers and take it for granted", "anchors": ["include/lalib/ops/vec_ops_core.hpp: dot_core, norm2_core", "include/lalib/ops/mat_vec_ops_core.hpp: mul_core, _sp_mul_core", "include/lalib/ops/mat_mat_ops_core.hpp: mul_core"]}
{"id": "C63", "title": "Programs over COO objects compute what they compute on matrices", "statement": "A program is any sequence of x = SpCooMat(...), unit, x = y, x = std::move(y), x.mut_at(i,j) = v, scale, x += y, x = y + z, x = y - z, x = alpha * y, x = -y over named objects, which may coincide, each statement in its own try block. If constructor positions are distinct, operands hold matrices (not moved from) and sums are in the safe domain of C26, the program runs to its end without undefined behaviour, throws exactly at unstored positions and unequal array lengths, and every object then represents the matrix that the program computes mathematically. A statement changes only the object it is directed at (move: also its source), and nothing if it fails. The represented matrix determines the object bit for bit, its nnz, its shape and the product of its compressed form with any vector.", "quantifier": "all programs, all objects, all coincidences of operands, every admissible sort", "why_tests_cant": "programs are unbounded; tests exercise single operations on distinct objects", "anchors": ["include/lalib/mat/sp_mat.hpp: SpCooMat (constructors, operator=, mut_at, operator+=, unit)", "include/lalib/ops/mat_ops.hpp: scale, operator*, operator-", "include/lalib/ops/sp_mat_ops.hpp: operator+, operator-"]}
{"id": "C64", "title": "Programs over COO and CSR objects compute what they compute on matrices", "statement": "The statement of C63 for programs which in addition convert, x = SpMat(y), and construct, copy, move, write, scale and negate SpMat objects: same outcome as on matrices, exceptions included, provided raw arrays given to SpMat are a well-formed row structure and element writes stay within the rows; later changes of a COO object do not affect CSR objects made from it; products are determined by the represented matrix.", "quantifier": "all programs, all objects of both formats, all coincidences of operands", "why_tests_cant": "programs are unbounded", "anchors": ["include/lalib/mat/sp_mat.hpp: SpCooMat, SpMat (constructors, operator=, mut_at, unit)", "include/lalib/ops/mat_ops.hpp: scale, operator*, operator-"]}
{"id": "C65", "title": "Non-finite numbers do not disappear in products", "statement": "Over IEEE 754 numbers: if the result of dot, norm2, or a component of gemv, gemm, axpy or a sparse product is finite, then every number that entered it is finite; if one of them is NaN the result is NaN. For dot this holds for every reduction tree. A sparse and a dense product of the same matrix can differ (a stored zero against infinity; an absent one is skipped), and y of gemv is not ignored for beta = 0: a NaN or infinity in it survives.", "quantifier": "all formats (binary32, binary64), all shapes, all values including infinities, NaN, signed zeros and subnormals", "why_tests_cant": "the special values are many and their combinations with shapes unbounded", "anchors": ["include/lalib/ops/vec_ops_core.hpp: dot_core, norm2_core, axpy_core", "include/lalib/ops/mat_vec_ops_core.hpp: mul_core, _sp_mul_core", "include/lalib/ops/mat_mat_ops_core.hpp: mul_core"]}
{"id": "C66", "title": "Error bounds of products with overflow and underflow", "statement": "Over IEEE 754 numbers: if dot, norm2 or a component of gemv, gemm or a sparse product is finite, it differs from the exact value by at most gam(k) times the sum of the absolute values of the terms plus an explicit multiple of half the smallest positive number; and it is finite if that sum stays below the overflow threshold by the same factor.", "quantifier": "all formats, all shapes, all values, all reduction trees of dot", "why_tests_cant": "a worst case over all inputs, including those that overflow and underflow", "anchors": ["include/lalib/ops/vec_ops_core.hpp: dot_core, norm2_core", "include/lalib/ops/mat_vec_ops_core.hpp: mul_core, _sp_mul_core", "include/lalib/ops/mat_mat_ops_core.hpp: mul_core"]}
{"id": "C67", "title": "One finite component certifies a direct solution", "statement": "Over IEEE 754 numbers back_sub, the Cholesky, modified Cholesky, incomplete LU and tri-diagonal (at least two equations) solvers never fail on operands of the right shape: they return the solution of their recurrence. If one component of it is finite, then the right-hand side and the factor entries it depends on are finite, no pivot on the way is zero or NaN, and the components computed before are finite. If one of these numbers is NaN, every component that depends on it is NaN.", "quantifier": "all formats, all n, all factors, all right-hand sides, both storage classes of Cholesky, one or many columns", "why_tests_cant": "all positions of a special value in all shapes", "anchors": ["include/lalib/solver/tri_diag.hpp: TriDiag::solve_linear", "include/lalib/solver/internal/tdma.hpp: tdma", "include/lalib/solver/internal/cholesky_decomposition.hpp: cholesky_linear, mod_cholesky_linear", "include/lalib/solver/ilu.hpp: Ilu::solve", "include/lalib/mat/dyn_mat.hpp: DynUpperTriMat::back_sub"]}
{"id": "C68", "title": "A NaN is never the reason for a rejected factorisation, and stays visible", "statement": "Over IEEE 754 numbers: a Cholesky factorisation whose row j contains a NaN neither succeeds nor fails because of the rows from j on: its outcome is that of the leading j rows (so [NaN] is accepted); the modified and the incomplete factorisation likewise. With the factors of a matrix that has a NaN in the lower triangle (which is what is read), or with a NaN in the right-hand side, every component of a solution by Cholesky or modified Cholesky is NaN; a finite component certifies that the right-hand side and the entries below the diagonal are finite and no diagonal entry is NaN. For incomplete LU a NaN in the right-hand side or below the diagonal makes every component NaN, one in row j on or above the diagonal makes the components up to j NaN; a finite component i certifies that the right-hand side and everything below the diagonal is finite, and from row i on what is above it, with no diagonal entry zero or NaN.", "quantifier": "all formats, all n, all matrices and storage classes, all right-hand sides", "why_tests_cant": "all positions of NaN in all shapes; tests use numbers only", "anchors": ["include/lalib/solver/cholesky_factorization.hpp: DynTriCholeskyFactorization, DynCholeskyFactorization, DynModCholeskyFactorization", "include/lalib/solver/internal/cholesky_decomposition.hpp: cholesky_decomposition, mod_cholesky_decomposition", "include/lalib/solver/ilu.hpp: Ilu"]}
{"id": "C69", "title": "GMRES over IEEE 754 numbers: always an answer, and what a finite one certifies", "statement": "Over IEEE 754 numbers, for a dense or CSR matrix: unless the constructor throws std::runtime_error (zero pivot of the preconditioner), solve returns a vector of length n after at most n iterations, whatever the numbers are. If one component is finite then the right-hand side and every entry of the matrix are finite, no diagonal entry is zero, and no basis vector before the last vanished. One NaN in the matrix or in the right-hand side makes every component NaN. For the right-hand side zero every component of the result is NaN. With a tolerance that is not positive all n iterations are done.", "quantifier": "all formats, all n, all matrices of both classes, all right-hand sides and tolerances (also NaN)", "why_tests_cant": "all positions of a special value in all shapes; the iteration count depends on the data", "anchors": ["include/lalib/solver/gmres.hpp: Gmres::solve, _arnoldi, _givens_rot"]}
{"id": "C70", "title": "Overflow and underflow inside inverse and norm", "statement": "Over IEEE 754 numbers: the three forms of the 2x2 inverse always return, with the same four numbers. If one of them is finite then the computed determinant is neither zero nor NaN, and the matrix is finite unless the determinant overflowed. If the determinant underflows to zero no entry of the result is finite; if it overflows the result for a finite matrix is the zero matrix. norm2 is infinite as soon as the square of one component overflows, and zero when the squares of all components underflow, even if the exact norm is a number of the format.", "quantifier": "all formats, all matrices and vectors, all aliasing of operand and result", "why_tests_cant": "depends on the range of the format, not on the shapes that tests vary", "anchors": ["include/lalib/mat.hpp: invert, inverted", "include/lalib/ops/vec_ops_core.hpp: norm2_core"]}
{"id": "C71", "title": "Backward errors of the direct solvers with overflow and underflow", "statement": "Over IEEE 754 numbers: if the first component of the result of back_sub, of the Cholesky, modified Cholesky, incomplete LU or tri-diagonal solver is finite (and the diagonal that is divided by is finite), then the whole result is the exact solution of a system whose matrix and right-hand side differ from the given ones by explicit bounds: a multiple of gam(k) and a multiple of half the smallest positive number. For Cholesky only the diagonal of the matrix has to be finite (and its first entry positive) and the bounds are in terms of it alone. The tri-diagonal system has at least two equations. The condition on the pivots cannot be dropped for the tri-diagonal and the modified Cholesky solver: a pivot that overflows turns a solvable system, with its solution in the format, silently into zeros.", "quantifier": "all formats, all n, all matrices and storage classes, all right-hand sides, one or many columns", "why_tests_cant": "a worst case over all inputs, including those that overflow and underflow", "anchors": ["include/lalib/solver/tri_diag.hpp: TriDiag::solve_linear", "include/lalib/solver/internal/tdma.hpp: tdma", "include/lalib/solver/internal/cholesky_decomposition.hpp: cholesky_decomposition, cholesky_linear, mod_cholesky_decomposition, mod_cholesky_linear", "include/lalib/solver/ilu.hpp: Ilu ctor, _decomp_lu_inplace, Ilu::solve", "include/lalib/mat/dyn_mat.hpp: DynUpperTriMat::back_sub"]}
{"id": "C72", "title": "Programs over vectors and dense matrices compute what they compute on vectors and matrices", "statement": "A program over any number of named DynVec and DynMat objects - constructing, copying, moving, writing elements, add, sub, neg, axpy, scale, +, -, unary -, scalar *, dot, matrix-vector and matrix-matrix mul and * - has the outcome of the same program on vectors and matrices: the same final values, the same SizeMismatched exception of every statement (with both sizes), or the same end of the program (std::terminate out of noexcept, a failed assertion), whatever objects coincide and in whatever order the parallel loops run. Result vectors of add and sub may be longer than the operands. A statement changes only the objects it is directed at, a failing one nothing at all; std::move of a matrix leaves it as it was.", "quantifier": "all programs, all objects and their sizes, all coincidences of operands and results, all schedules, both build modes, all commutative rings", "why_tests_cant": "unboundedly many statements, objects, sizes and aliasing patterns", "anchors": ["include/lalib/ops/vec_ops.hpp: add, sub, neg, axpy, scale, dot, operators", "include/lalib/ops/mat_ops.hpp: scale, operators", "include/lalib/ops/mat_mat_ops.hpp: add, sub, mul, operators", "include/lalib/ops/mat_vec_ops.hpp: mul, operator*", "include/lalib/vec/dyn_vec.hpp: DynVec", "include/lalib/mat/dyn_mat.hpp: DynMat"]}
{"id": "C73", "title": "Solver calls whose arguments do not fit together", "statement": "With assertions every Cholesky solver and the tri-diagonal solver stop at a right-hand side with the wrong number of rows (matrices: also at a result of another shape); a result vector of the tri-diagonal solver and the right-hand side of the incomplete LU are not checked in any build. With NDEBUG: packed Cholesky silently solves the leading system for a shorter right-hand side and reads past its factor for a longer one; Cholesky with square storage solves the system of the factor read with the wrong row length, or returns nothing; modified Cholesky reads past a shorter right-hand side and solves the first n rows of a longer one, copying the rest; the tri-diagonal solver accesses memory outside of vectors that are too short and leaves the rest of longer ones alone; incomplete LU solves with the leading part of its factors, and for a longer right-hand side reads out of bounds (dense, CSR) or divides by zero (COO). A Cholesky constructor takes an n x c matrix, c > n, for the n x n matrix with the same first elements, and makes no object for c < n unless the first element is not positive.", "quantifier": "all sizes of matrices, right-hand sides and results, all elements, both build modes, all storage classes", "why_tests_cant": "tests use arguments that fit", "anchors": ["include/lalib/solver/cholesky_factorization.hpp: solve_linear, solve_linear_mut, constructors", "include/lalib/solver/internal/cholesky_decomposition.hpp: cholesky_linear, mod_cholesky_linear", "include/lalib/solver/tri_diag.hpp: TriDiag::solve_linear", "include/lalib/solver/internal/tdma.hpp: tdma", "include/lalib/solver/ilu.hpp: Ilu::solve"]}
{"id": "C74", "title": "Addresses computed in 64-bit arithmetic", "statement": "With size_t of 64 bits, where every sum and product wraps around, each element access inside the shape of an existing matrix (dense, lower and upper triangular, Hermitian, Hessenberg with or without the element below the square) and each Hessenberg column slice computes the same address as with unbounded numbers; so does the size found from the number of elements, with the square root of double arithmetic. Outside the shape a dense access yields the element at i*m+j modulo 2^64 if the storage is that long and is undefined otherwise; for an even row length row 2^63 is row 0. DynMat::uninit(n, m) makes an object with n*m elements exactly if n*m < 2^64 (or terminates, above max_size); uninit(2^32, 2^32) succeeds and has no elements.", "quantifier": "all sizes and elements, all pairs of indices, every limit of the vector size", "why_tests_cant": "objects near the limits of size_t do not fit into a test machine", "anchors": ["include/lalib/mat/dyn_mat.hpp: operator(), at, mut_at, get_col, _calc_size, uninit", "include/lalib/mat/sized_mat.hpp: operator()", "include/lalib/solver/internal/cholesky_decomposition.hpp: index"]}
{"id": "C75", "title": "Loops marked for SIMD lanes and threads have no conflicting accesses", "statement": "For every loop under an OpenMP simd or parallel directive without reduction (negation, scaling, sum, difference, axpy, the rows of the dense and of the CSR matrix-vector product) and for every interleaving of the single loads and stores of its iterations: two iterations never touch the same element with one of them storing, no execution fails or gets stuck where the sequential loop succeeds, and a finished execution leaves the memory of the sequential loop. This includes operands and results that are the same vector, for the dense product by way of the temporary array. It fails for the CSR product with x and y the same vector: every stored element outside the diagonal is a race, and the result depends on the schedule.", "quantifier": "all sizes, contents, aliasing of vectors, all interleavings of single accesses", "why_tests_cant": "a test sees the schedules that one compiler and one machine happen to produce", "anchors": ["include/lalib/ops/vec_ops_core.hpp: __neg_core_*, __add_core_*, __sub_core_*, __axpy_core_*, __scal_core_simd", "include/lalib/ops/mat_vec_ops_core.hpp: __mul_core_simd, _sp_mul_core"]}
{"id": "C76", "title": "Incomplete LU and GMRES with sizes that do not fit together", "statement": "The incomplete LU constructor takes a matrix with more columns than rows for its leading square block - the same object or runtime_error in every storage class - and solve silently solves the system of that block (if it is regular and nothing is dropped). With more rows than columns: a dense matrix with at least two rows more yields no object; of one with one row more, solve reads past the end for a right-hand side with one element per row; a sparse one throws runtime_error or divides by zero for such a right-hand side. GMRES, for a matrix with at least one row, returns no vector, in either build, unless the matrix is square and the right-hand side has its size: it stops at an assertion, reads out of bounds or divides by zero; in IEEE arithmetic, dense, only the assertion and the out-of-bounds read remain, and so for a CSR matrix and a right-hand side longer than its rows or shorter than its columns.", "quantifier": "all shapes, all elements, all right-hand sides of all lengths, both build modes, all storage classes", "why_tests_cant": "tests use square matrices and right-hand sides that fit", "anchors": ["include/lalib/solver/ilu.hpp: Ilu ctor, _decomp_lu_inplace, Ilu::solve", "include/lalib/solver/gmres.hpp: Gmres, solve, _arnoldi", "include/lalib/ops/mat_vec_ops.hpp: operator*"]}
{"id": "C77", "title": "Products, sums and differences whose arguments do not fit together", "statement": "With assertions every mul, add, sub and operator stops at a size that does not fit, in all overloads (sizes that are part of the type aside). With NDEBUG, for any arithmetic: mul(alpha, A, x, beta, y) computes the first rows(A) elements of y from the first columns(A) of x and leaves the rest of y alone, also for x and y the same vector, and is undefined if one of them is shorter. mul of matrices reads all three storages with the row lengths that its overload takes from C (or from A and B), whatever the shapes of the others are, and is undefined exactly if a storage has too few elements for that; A * B ignores the rows of B beyond the columns of A and is undefined if B has fewer. add and sub combine the elements in storage order, as many as the first operand has; A + B has the shape of A and is undefined exactly if B has fewer elements. The CSR product ignores the tail of a longer x and of a longer y and is undefined for shorter ones.", "quantifier": "all shapes and storage lengths, all contents, all aliasing, all schedules, both build modes", "why_tests_cant": "tests use arguments that fit", "anchors": ["include/lalib/ops/mat_vec_ops.hpp: mul, operator*", "include/lalib/ops/mat_mat_ops.hpp: mul, add, sub, operators"]}
{"id": "C78", "title": "References, pointers and iterators into vectors and matrices", "statement": "In a program of constructors, assignments, moves, operators and in-place operations on any number of named vectors and matrices, mixed with references to elements (operator[], operator(), at), iterators (begin, ++, *) and writes through them: a reference stays a reference to the same element of the same object, and to nothing else, for as long as no statement assigns to that object as a whole (for COO matrices += is such a statement); two references share memory exactly if they are to the same element. An assignment of a new vector, a move, and every COO or CSR operation with a result assigned to the object make the old references unusable until they are given a new value; an assignment by a copy (all matrix operators) leaves them at the same position of the new contents if std::vector does not allocate, and makes them unusable if it does. After x = std::move(y) the references into the vector, COO or CSR matrix y are references into x. extend_with and extend_with_zero keep references exactly if the insertion does not allocate. A range-for over an object visits every element once in storage order. scale(x[k], x) and scale(x(i,j), x) use the value the element had before the call. Every object always has an array of its own.", "quantifier": "all programs, objects, references, contents, orders of the parallel loops and allocation decisions of std::vector", "why_tests_cant": "tests hold no references across assignments, and a dangling reference often appears to work", "anchors": ["include/lalib/vec/dyn_vec.hpp: operator[], begin, end, data, assignment", "include/lalib/mat/dyn_mat.hpp: operator(), begin, end, data, assignment", "include/lalib/mat/sp_mat.hpp: operator(), at, +=, moves", "include/lalib/mat/dyn_mat.hpp: HessenbergMat and DynUpperTriMat extend_with, extend_with_zero", "include/lalib/ops/vec_ops.hpp: scale", "include/lalib/ops/mat_ops.hpp: scale"]}
{"id": "C79", "title": "Complex vectors and Hermitian matrices", "statement": "norm2 of a vector of complex numbers is a root of the sum of the squares v_i*v_i with a non-negative real part; no absolute values are taken. It is the Euclidean norm exactly if every component is real, is never larger in absolute value, is zero exactly if the squares add up to zero (for every length from two on this happens with a vector that is not zero), changes by the factor alpha or -alpha when the vector is multiplied by alpha, and does not depend on the shape of the SIMD reduction. A DynHermiteMat or SizedHermiteMat of complex numbers, read through operator(), is its own conjugate transpose exactly if all stored elements are real; writing v to (i,j) and conj(v) to (j,i) leaves conj(v) in both places.", "quantifier": "all vectors and matrices over the complex numbers, and all root functions with values in the right half plane", "why_tests_cant": "tests use real element types only", "anchors": ["include/lalib/vec/dyn_vec.hpp: norm2", "include/lalib/vec/sized_vec.hpp: norm2", "include/lalib/ops/vec_ops_core.hpp: __norm2_core_simd, norm2_core", "include/lalib/mat/dyn_mat.hpp: DynHermiteMat::operator()", "include/lalib/mat/sized_mat.hpp: SizedHermiteMat::operator()"]}
{"id": "C80", "title": "Rounding errors with complex elements", "statement": "With std::complex elements whose parts are rounded with unit roundoff u: a sum or difference of vectors has a relative error of at most u in each component, alpha*x one of at most c = sqrt(2)*(1/(1-u)^2-1) (about 2.83 u), and alpha*x+y, alpha*A*x+beta*y, alpha*A*B+beta*C differ from the exact values by at most (1+c)^k-1 times the sum of the absolute values of the terms, with k = 2 for axpy and k = m+2 for products with m terms. norm2 takes the root of a number that differs from the sum of the n squares by at most (1+c)^n-1 times the sum of the squared absolute values, for any shape of the SIMD reduction.", "quantifier": "all vectors, matrices, scalars, roundings, sharing of storage in the matrix product, and shapes of the reduction", "why_tests_cant": "an error bound for all inputs cannot be tested", "anchors": ["include/lalib/ops/vec_ops.hpp: add, sub, scale, axpy", "include/lalib/ops/mat_vec_ops.hpp: mul", "include/lalib/ops/mat_mat_ops.hpp: mul", "include/lalib/ops/vec_ops_core.hpp: norm2_core", "include/lalib/ops/mat_vec_ops_core.hpp: mul_core", "include/lalib/ops/mat_mat_ops_core.hpp: mul_core"]}
{"id": "C81", "title": "Gram-Schmidt orthogonalisation in floating point", "statement": "cgs on M vectors a_0..a_{M-1} of dimension n, with elements rounded with unit roundoff u: if it returns, the vectors w_j it leaves and the coefficients r_kj it computes satisfy |a_j - (w_j + sum_k r_kj w_k)| <= g(j) (|w_j| + sum_k |r_kj w_k|) in every component, with g(k) = 1/(1-u)^k - 1, and |w_k.a_j - r_kj w_k.w_k| <= g(2n+1) sum_i |w_ki a_ji|; the scalar product w_k.w_j is at most sum over the other p of |r_pj||w_k.w_p| plus these rounding errors, so that two vectors come out orthogonal to working precision. It fails only with a division by zero, after a vector that is not the last came out as zero. With IEEE 754 numbers it always returns: one finite component of w_j shows that a_j and w_0..w_{j-1} are finite and that none of the latter is zero, and obeys the residual bound with j underflows; a vector that comes out as zero makes all later vectors NaN; and a vector whose square overflows is not orthogonalised against although everything is finite.", "quantifier": "all families of vectors of one non-zero dimension, all roundings, binary32 and binary64 (and every other binary format), DynVec and SizedVec", "why_tests_cant": "the inputs that come out far from orthogonal, vanish or overflow are rare among random ones, and a bound for all inputs cannot be tested", "anchors": ["include/lalib/ops/orthogonal.hpp: cgs", "include/lalib/ops/vec_ops.hpp: dot, axpy", "include/lalib/ops/vec_ops_core.hpp: dot_core, axpy_core"]}
{"id": "C82", "title": "Programs with solver objects", "statement": "Take any program made of the statements on DynVec and DynMat objects (C72), of constructions of DynCholeskyFactorization, DynModCholeskyFactorization, TriDiag, Ilu and Gmres objects from them, and of calls of solve_linear, solve_linear_mut and solve on these. Every solver object stands for the system it was made from, whatever is later done to the matrix handed to its constructor and however often it is used: solve_linear and solve_linear_mut leave A^-1 b (A^-1 B for matrices) for the A at the time of construction and the b at the time of the call, Ilu::solve leaves (LU)^-1 b (with the factors of the leading square block if there are more columns than rows), Gmres::solve an x with a preconditioned residual below the tolerance; a constructor throws exactly for matrices that are not positive definite, have a vanishing leading minor, or have no incomplete factors, and then the old object of that name and everything else are unchanged; std::move of a DynMat into a constructor leaves the matrix as it was; no statement changes an object that is not its target, in particular solving changes neither the solver object nor the right-hand side (unless _mut).", "quantifier": "all programs (statement lists of any length) whose statements are valid when reached, all states, with and without NDEBUG, element types an ordered field with exact square roots", "why_tests_cant": "the number of interleavings of constructions, modifications and solves is unbounded", "anchors": ["include/lalib/solver/cholesky_factorization.hpp: DynCholeskyFactorization, DynModCholeskyFactorization", "include/lalib/solver/tri_diag.hpp: TriDiag", "include/lalib/solver/ilu.hpp: Ilu", "include/lalib/solver/gmres.hpp: Gmres", "include/lalib/mat/dyn_mat.hpp: DynMat(const DynMat&), operator="]}
{"id": "C83", "title": "What a failed call leaves behind", "statement": "Take the constructors of SpCooMat, SpMat, HessenbergMat, DynUpperTriMat, DynLowerTriMat, DynHermiteMat, SpCooMat::operator+=, the extensions of Hessenberg and triangular matrices, into_lower_mat, and the constructors of the Cholesky, Ilu and Gmres objects, and let any request for memory be refused at will. (a) A call that returns has the effect it has with memory enough. (b) An exception that leaves a call is the one the call throws with memory enough, or std::bad_alloc after a refused request; no exception leaves the functions declared noexcept. (c) After an exception every object is as it was before the call, except in six calls (SpCooMat and SpMat from rvalue vectors, DynTriCholeskyFactorization, Ilu of a sparse matrix, Gmres of a SpMat): these have taken their argument already, which is empty (a Hermitian matrix keeps its size and has no element left, every access is out of bounds; shape() of the emptied sparse matrix is undefined behaviour). HessenbergMat(std::vector&&) checks before it takes the vector. (d) A refused request ends the program in exactly the thirteen kinds of call that allocate inside a noexcept function (among them operator+= of SpCooMat and the dense factorisations), and std::bad_alloc leaves exactly seven kinds of call that would have succeeded. (e) In any program of such calls with handlers for all exceptions, coordinate matrices stay sorted with arrays of equal length and structured matrices keep as many elements as their size asks for, however many calls fail.", "quantifier": "all calls, all objects, all answers to the requests for memory, all programs of such calls with handlers", "why_tests_cant": "which request is refused and what had been modified by then are not under the control of a test", "anchors": ["include/lalib/mat/sp_mat.hpp: SpCooMat::SpCooMat, unit, operator+=, _sort, SpMat::SpMat, unit", "include/lalib/mat/dyn_mat.hpp: HessenbergMat, DynUpperTriMat, DynLowerTriMat, DynHermiteMat (constructors, extend_with, extend_with_zero, into_lower_mat)", "include/lalib/solver/cholesky_factorization.hpp: constructors", "include/lalib/solver/ilu.hpp: Ilu(M&&)", "include/lalib/solver/gmres.hpp: Gmres(M&&, T)"]}
{"id": "C84", "title": "Tri-diagonal systems for which the solver cannot fail in IEEE arithmetic", "statement": "Over IEEE 754 numbers, for finite matrices whose diagonal is below half the range. (a) If the matrix is weakly diagonally dominant by rows and the entry left of the diagonal is strictly smaller than the diagonal (no margin for roundings is needed; -1 2 -1 is such a matrix), every pivot is finite and not zero and every quotient of the forward sweep is at most 1 in magnitude; a finite first component of the result then makes the whole result finite and the exact solution of a system whose entries differ by a relative error of at most 3 gam(4), plus explicit underflow terms, in terms of the given matrix alone. (b) If positive weights w satisfy |b_i| + sum_{j != i} |a_ij| w_j <= |a_ii| w_i with a margin of four roundings and the underflow terms, and are in range, then the result is finite everywhere, |x_i| <= w_i, and it is such a near solution. (c) If in addition the dominance has a margin g, every component differs from the exact solution by at most 7 gam(4) w_i / g. The strictness in (a) is needed: 1 1; 1 1 gives no finite component.", "quantifier": "all formats, all n >= 2, all matrices and right-hand sides with the condition, one or many columns", "why_tests_cant": "a guarantee for all inputs of a class, whatever n, where every rounding, underflow and overflow has to be excluded or counted", "anchors": ["include/lalib/solver/tri_diag.hpp: TriDiag::solve_linear", "include/lalib/solver/internal/tdma.hpp: tdma"]}
{"id": "C85", "title": "Positive definite systems for which Cholesky cannot fail in IEEE arithmetic", "statement": "Over IEEE 754 numbers, with d_i the root of the diagonal entry a_ii, g = gam(6(n+1)), and a number lam such that x^T A x >= lam sum a_ii x_i^2 for all x (lam measures how far the scaled matrix is from singular; dominance with margin lam is enough). (a) If 3 n g < lam, sixteen times every diagonal entry is in range and underflows are small beside d_i d_j, the constructor of the Cholesky object does not throw, the factor is finite with a positive diagonal, and L L^T differs from A by at most 3 g d_i d_j. (b) If 6 (n+1) g < lam, the right-hand side is finite and a number X with 64 sum b_i^2 / a_ii <= lam^2 X^2 is well inside the range, then solving (in place or not, one or many columns, either storage) gives a solution x that is finite everywhere, with sum a_ii x_i^2 <= X^2; it solves exactly a system whose entries differ by at most g d_i d_j and g d_i X; and for the exact solution z, lam sqrt(sum a_ii (x_i - z_i)^2) <= 2 n g X. (c) Positive definiteness alone is not enough: a 2 x 2 positive definite matrix of doubles is refused.", "quantifier": "all formats, all n, all symmetric matrices and right-hand sides with the conditions, both storages, one or many columns", "why_tests_cant": "that no pivot is lost to rounding, and that neither sweep overflows, has to be shown for every matrix of the class; it is a bound on accumulated roundings which no finite set of matrices shows", "anchors": ["include/lalib/solver/cholesky_factorization.hpp: DynTriCholeskyFactorization, DynCholeskyFactorization (constructors, solve_linear, solve_linear_mut)", "include/lalib/solver/internal/cholesky_decomposition.hpp: cholesky_decomposition, cholesky_linear"]}
{"id": "C86", "title": "Incomplete factorisations of matrices with a dominating diagonal cannot fail", "statement": "Let w be positive weights with |a_ii| w_i > sum over j != i of |a_ij| w_j in every row (all weights 1: strict diagonal dominance; in general an H-matrix), whatever the pattern of zeros. (a) Exact arithmetic: the constructor of Ilu does not throw; every pivot has the sign of the diagonal entry it comes from; no row of the upper factor has a smaller gap than the same row of the matrix; solve gives a solution of the factored system with |x_i| <= s w_i whenever |b_i| <= s gap_i, the bound that the solution of the system itself has. For an M-matrix the pivots are positive, all other entries are not, and a right-hand side without negative components gives a solution without any. Where the pattern has room for the whole factorisation the system itself is solved. GMRES constructs its preconditioner and every solution it returns has a preconditioned residual below the tolerance. Equality in the rows is not enough. (b) IEEE 754 numbers: if the gaps survive the rounding of the elimination and the entries are not near overflow, the constructor does not throw, the factors are finite and the pivots non-zero; solving gives a finite solution with |x_i| <= s w_i that solves exactly a system close to the factored one; without fill the residual is at most (2n+6) gam(3n+1) s |a_ii| w_i, and the distance from the solution of the system is bounded accordingly.", "quantifier": "all ordered fields and all binary formats, all n, all matrices and weights with the condition, all patterns, the three storage classes, all right-hand sides", "why_tests_cant": "that no pivot vanishes or overflows has to hold for every pattern of dropped entries; a test sees one pattern and one set of numbers", "anchors": ["include/lalib/solver/ilu.hpp: internal::_decomp_lu_inplace, Ilu ctor, Ilu::solve", "include/lalib/solver/gmres.hpp: Gmres ctor, Gmres::solve"]}
{"id": "C87", "title": "The error bounds hold for every arithmetic with accurate operations, contracted products included", "statement": "Of the element type no more is assumed than that +, -, *, / and sqrt have a relative error of at most u < 1, that negation and comparisons are exact and 0, 1 are numbers; the error may depend on how the operands were computed, so equal operations need not give equal results. Then: inner products (in order, or grouped and ordered in any way, with the depth of the reduction instead of n), norms (likewise), the 2-dimensional cross product, gemv, gemm and the sparse product have the usual forward bounds; back substitution, both triangular solves of Cholesky, TDMA and the incomplete factorisation return the exact solution of a system with entries changed by gam_k relative to |L||U| (TDMA of a dominant matrix: 3 gam_5 of every entry); the Cholesky constructor accepts every matrix that is positive definite beyond n gam(6(n+1)) and throws for every one that is indefinite beyond n gam(2n+2). Evaluation with any selection of products fused into the following addition (x*y+z rounded once) is such an arithmetic, with the u of the format. What contraction does not preserve: in double precision the matrix with four equal entries 2^27+1 is inverted, and the cross product of two equal vectors is 1; both are exact without contraction.", "quantifier": "all such arithmetics (any carrier type, any error function), all u < 1, all sizes, inputs and reduction shapes; for contraction: all roundings and all choices of fused products", "why_tests_cant": "compilers may contract differently at every place and for every set of options; a test sees one binary", "anchors": ["include/lalib/ops/vec_ops.hpp: dot, cross", "include/lalib/vec/dyn_vec.hpp: dot, norm2", "include/lalib/ops/mat_vec_ops.hpp: mul", "include/lalib/ops/mat_mat_ops.hpp: mul", "include/lalib/ops/mat_vec_ops_core.hpp: _sp_mul_core", "include/lalib/mat/dyn_mat.hpp: DynUpperTriMat::back_sub", "include/lalib/solver/cholesky_factorization.hpp: DynTriCholeskyFactorization, DynCholeskyFactorization, DynModCholeskyFactorization", "include/lalib/solver/internal/cholesky_decomposition.hpp: cholesky_decomposition, cholesky_linear, mod_cholesky_decomposition, mod_cholesky_linear", "include/lalib/solver/internal/tdma.hpp: tdma", "include/lalib/solver/ilu.hpp: internal::_decomp_lu_inplace, Ilu::solve", "include/lalib/mat.hpp: invert, inverted"]}
{"id": "C88", "title": "Units: scaling by powers of two (signs, for IEEE numbers) changes results by the expected factor, exactly", "statement": "Two calls of one function, every number of the second being the corresponding number of the first times a factor. For rounding to p bits the factors may be any powers of two and their negatives, and nothing else commutes with rounding; for IEEE 754 numbers with overflow, underflow and NaN they may be the signs (and nothing more: doubling a vector can make a scalar product overflow). Then the two calls end in the same way and the second result is the first one times the factor that exact arithmetic would give, bit for bit: dot and norm2 (any shape of the reduction), +, -, axpy, scaling by a scalar, cross products, Gram-Schmidt (one factor per vector), gemv, gemm, the sparse product, back substitution (rows and columns scaled), Cholesky (diag(d) A diag(d): the same decision, and the factor is diag(d) L up to column signs) and its modified form (L diag and D separately, no sign), both solves for vectors and for matrices, ILU (rows and columns scaled: the same decision, the same pivots tested) and its solve, TDMA (rows and columns scaled), for vectors and for matrices, and (rounding to p bits) GMRES with its ILU preconditioner: rows scaled by any factors, right-hand side and tolerance by one more, the same decision of the constructor, the same failures and the scaled result. In particular equilibrating a system with powers of two does not change the computed solution.", "quantifier": "all sizes and inputs, all admissible factors per row, per column, per right-hand side and per vector, all overloads, any storage of the two matrices", "why_tests_cant": "relates two runs on arbitrary data; a test would compare finitely many pairs, and a code path with an absolute threshold (a pivot test against a tolerance, say) breaks the relation only for some magnitudes", "anchors": ["include/lalib/ops/vec_ops.hpp: dot, axpy, cross", "include/lalib/vec/dyn_vec.hpp: dot, norm2", "include/lalib/ops/orthogonal.hpp: cgs", "include/lalib/ops/mat_vec_ops.hpp: mul", "include/lalib/ops/mat_mat_ops.hpp: mul", "include/lalib/ops/mat_vec_ops_core.hpp: _sp_mul_core", "include/lalib/mat/dyn_mat.hpp: DynUpperTriMat::back_sub", "include/lalib/solver/cholesky_factorization.hpp: DynTriCholeskyFactorization, DynCholeskyFactorization, DynModCholeskyFactorization", "include/lalib/solver/internal/cholesky_decomposition.hpp: cholesky_decomposition, cholesky_linear, mod_cholesky_decomposition, mod_cholesky_linear", "include/lalib/solver/internal/tdma.hpp: tdma", "include/lalib/solver/ilu.hpp: internal::_decomp_lu_inplace, Ilu::solve", "include/lalib/solver/gmres.hpp: _arnoldi, _givens_rot, solve"]}
{"id": "C89", "title": "Order: smaller data give smaller computed results, and systems with non-positive off-diagonal entries keep signs", "statement": "Two calls of one function, the data of the second being larger. Whenever the second result is finite so is the first, and it is the smaller one, as computed numbers, with no tolerance. Scalar products of vectors without negative entries, for every shape of the reduction; the norm, by absolute values; gemv, gemm and the sparse product with nothing negative. For matrices with nothing positive off the diagonal and A' <= A entry by entry: if Cholesky (plain or modified) or ILU of A' succeeds with positive pivots and finite entries then it succeeds for A, the pivots of A are at least those of A', and the factors are in the same order; and for right-hand sides 0 <= b <= b' the solutions of back substitution, Cholesky, ILU and TDMA satisfy 0 <= x <= x'. With A' = A: the computed solution has no negative component. For IEEE 754 numbers the conditions on A' hold for the systems of C84 (weakly dominant, tri-diagonal) and C85 (positive definite).", "quantifier": "all sizes and inputs in the stated order, all monotone roundings (rounding to p bits is one) and all IEEE formats, all overloads, any storage of the two matrices", "why_tests_cant": "an inequality without tolerance between two runs on arbitrary data; a rearranged sum or a fused product breaks it by one unit in the last place on rare inputs only", "anchors": ["include/lalib/ops/vec_ops.hpp: dot", "include/lalib/vec/dyn_vec.hpp: dot, norm2", "include/lalib/ops/mat_vec_ops.hpp: mul", "include/lalib/ops/mat_mat_ops.hpp: mul", "include/lalib/ops/mat_vec_ops_core.hpp: _sp_mul_core", "include/lalib/mat/dyn_mat.hpp: DynUpperTriMat::back_sub", "include/lalib/solver/cholesky_factorization.hpp: DynTriCholeskyFactorization, DynCholeskyFactorization, DynModCholeskyFactorization", "include/lalib/solver/internal/cholesky_decomposition.hpp: cholesky_decomposition, cholesky_linear, mod_cholesky_decomposition, mod_cholesky_linear", "include/lalib/solver/internal/tdma.hpp: tdma", "include/lalib/solver/ilu.hpp: internal::_decomp_lu_inplace, Ilu::solve"]}
{"id": "C90", "title": "Integer element types: exact when nothing overflows, overflow detected exactly, unsigned results modulo 2^w", "statement": "The functions that compile for integer elements: negation, sum, difference, scale, axpy, cross product, matrix sum and difference, and the products mul(alpha, A, x, beta, y) and mul(alpha, A, B, beta, C). For a signed type with b value bits, each element of the result is the exact integer if a stated list of intermediate values lies in [-2^b, 2^b), and otherwise its evaluation overflows, which is undefined behaviour. The lists are: the result itself for negation, sum, difference and scale; alpha*x and alpha*x+y for axpy; both products and their difference for the cross product; beta*y, all alpha*A, all alpha*A*x and all partial sums, from the left, for the products. It is enough for the products that every |alpha*A| and the sum of the absolute values of all terms is below 2^b. For an unsigned type with w bits each element is the exact result modulo 2^w. All this with the result object being an operand or not, and for dynamic and sized objects.", "quantifier": "all widths, sizes, integer contents, aliasing allowed by the functions, evaluation orders of the unsequenced loops", "why_tests_cant": "overflow occurs for particular large values only, and is undefined behaviour, so a test may see the expected number; the claim is the exact set of inputs on which it happens", "anchors": ["include/lalib/ops/vec_ops.hpp: neg, add, sub, scale, axpy, cross", "include/lalib/ops/vec_ops_core.hpp: generic cores", "include/lalib/ops/mat_mat_ops.hpp: add, sub", "include/lalib/ops/mat_vec_ops.hpp: mul", "include/lalib/ops/mat_vec_ops_core.hpp: mul_core", "include/lalib/ops/mat_mat_ops.hpp: mul", "include/lalib/ops/mat_mat_ops_core.hpp: mul_core"]}
{"id": "C91", "title": "Forward error bounds of the solvers, and residuals as certificates", "statement": "In rounded arithmetic with unit roundoff u: let K bound the maximum norm of the inverse of A (for instance 1/d if the diagonal dominates by d). Back substitution, the tri-diagonal solver on a dominating matrix and incomplete LU of a matrix without fill-in return x with max|x - z| <= q/(1-q) max|z|, where z is the exact solution and q = K times the row sums of the solver's backward error bound; for Cholesky the Euclidean distance is at most n gam(4n+2) max(a_ii)/lambda_min times the norm of x. Conversely, whatever x is: after y = b; mul(-1, A, x, 1, y) the distance of x from the solution is at most K times the largest |y_i| plus the rounding error bound of the residual itself; this for dense and compressed matrices and, if the residual is finite, for IEEE 754 numbers with underflow.", "quantifier": "all roundings, sizes, matrices and right-hand sides as described, all vectors x for the certificate", "why_tests_cant": "the error against the exact solution cannot be observed by a test, and the bound is claimed for all data", "anchors": ["include/lalib/solver/internal/tdma.hpp: tdma", "include/lalib/solver/cholesky_factorization.hpp: solve_linear, solve_linear_mut", "include/lalib/solver/ilu.hpp: Ilu, solve", "include/lalib/mat/dyn_mat.hpp: DynUpperTriMat::back_sub", "include/lalib/ops/mat_vec_ops.hpp: mul", "include/lalib/ops/mat_vec_ops_core.hpp: mul_core, _sp_mul_core"]}
{"id": "C92", "title": "Iterative refinement with the functions of the library converges at a stated rate", "statement": "The loop r = b; mul(-1, A, x, 1, r); d = solver.solve(r); axpy(1, d, x), executed k times in rounded arithmetic, changes x, r and d only and never fails. If K bounds the maximum norm of the inverse of A, S its row sums and c the row sums of the solver's backward error with K c < 1, then from any start x the error after k steps is at most q^k times the initial error plus f max|z| (1 + q + ... + q^(k-1)), with q = (1+u) K (c + g S)/(1 - K c), f = u + 2(1+u) K g S/(1 - K c), g = gam(n+2); for q < 1 at most q^k e + f max|z|/(1-q). The solver may be the tri-diagonal solver of a dominating matrix, a Cholesky object, or an incomplete LU factorisation of any matrix (then c contains the row sums of |LU - A|).", "quantifier": "all roundings, sizes, matrices, right-hand sides, starting vectors, numbers of steps, any solver with a backward error bound", "why_tests_cant": "a statement about all step counts and about the distance to the unknown exact solution", "anchors": ["include/lalib/ops/mat_vec_ops.hpp: mul", "include/lalib/ops/mat_vec_ops_core.hpp: mul_core", "include/lalib/ops/vec_ops.hpp: axpy", "include/lalib/solver/internal/tdma.hpp: tdma", "include/lalib/solver/cholesky_factorization.hpp: solve_linear, solve_linear_mut", "include/lalib/solver/ilu.hpp: solve"]}
{"id": "C93", "title": "Element types in lock step: continuity, growing precision, derivatives with dual numbers, enclosures with intervals", "statement": "Take one call with elements of a type T', and a family of calls of the same function with elements of types T_i, where every element of T' describes the corresponding family of elements (zero, one, negation, sum, difference, product, quotient, root and the tests keep this). If the call with T' returns, then the calls of the family return (eventually, along a filter) and the results of the first describe the results of the family. Shown for scalar products (also reductions in any shape), norms, sums, scalings, axpy, cross products, gemv, gemm, sparse products, Gram-Schmidt, the tri-diagonal solver, both Cholesky factorisations and their solves, back substitution and incomplete LU (if the zeros of the matrix are zeros in the family). Four cases: (1) limits of real data: the solvers are continuous where the matrix is positive definite or regular; incomplete LU is not continuous where an entry becomes zero; (2) rounded arithmetic with unit roundoff tending to zero: from some precision on the solvers return and the solutions converge to the exact one; (3) dual numbers: a solver called with dual numbers returns the solution and its derivative, A x' + A' x = b'; (4) intervals with directed rounding: if the solver returns, every symmetric matrix in the interval matrix is positive definite (regular) and every solution is in the computed interval vector.", "quantifier": "all element types with such a description, filters, sizes, data, storages, execution orders of the parallel branches", "why_tests_cant": "a statement about infinitely many runs at once (limits, neighbourhoods, all matrices in an interval matrix), and about element types no test instantiates", "anchors": ["include/lalib/ops/vec_ops.hpp: dot, add, axpy, scale, cross", "include/lalib/vec/dyn_vec.hpp: dot, norm2", "include/lalib/ops/mat_vec_ops.hpp: mul", "include/lalib/ops/mat_mat_ops.hpp: mul", "include/lalib/ops/mat_vec_ops_core.hpp: _sp_mul_core", "include/lalib/ops/orthogonal.hpp: cgs", "include/lalib/solver/internal/tdma.hpp: tdma", "include/lalib/solver/cholesky_factorization.hpp: constructors, solve_linear, solve_linear_mut", "include/lalib/mat/dyn_mat.hpp: DynUpperTriMat::back_sub", "include/lalib/solver/ilu.hpp: constructor, solve"]}
{"id": "C94", "title": "Two element types whose operations correspond give corresponding results and the same failures", "statement": "Let the elements of two types correspond (zero, one, negation, sum, difference, product and quotient keep the correspondence; where a function tests for zero, takes roots or compares, these agree as well). Call a function with arguments of the first type and with corresponding arguments of the second. Then both calls return and the results correspond, or both fail and in the same way: same exception, same undefined operation, same assertion. Shown without further conditions, also for arguments of bad size, for scalar products (also reductions in any shape), norms, sums, axpy, scalings, cross products, gemv, gemm, matrix sums, differences, scalings, small inverses, operators returning values, constructors, coordinate matrices (constructors, access, sum, also of a matrix with itself, difference, scaling), compressed row matrices (construction from coordinates, access, scaling, product), Hessenberg, upper and lower triangular, Hermitian and tri-diagonal matrices, Gram-Schmidt, the tri-diagonal solver, both Cholesky factorisations (also the return codes of the kernels) and their solves, incomplete LU and its solve, GMRES. Consequence: the solvers commute with homomorphisms of fields: rational data give the same numbers in a larger field, conjugate data give conjugate results.", "quantifier": "all pairs of element types with such a correspondence, all arguments including those for which the call fails, sizes, storages, execution orders of the parallel branches", "why_tests_cant": "element types are template parameters; a test fixes one of them, and the statement compares two runs for every pair, including the runs that fail", "anchors": ["include/lalib/ops/vec_ops.hpp: all functions", "include/lalib/ops/mat_vec_ops.hpp: mul", "include/lalib/ops/mat_mat_ops.hpp: mul", "include/lalib/ops/mat_mat_ops.hpp: add, sub", "include/lalib/ops/mat_ops.hpp: scale, operator*, operator-", "include/lalib/ops/mat_vec_ops_core.hpp: _sp_mul_core", "include/lalib/mat/sp_mat.hpp: class SpCooMat, SpMat", "include/lalib/mat/dyn_mat.hpp: constructors, access", "include/lalib/mat/dyn_mat.hpp: DynTriDiagMat, HessenbergMat, DynUpperTriMat, DynLowerTriMat, DynHermiteMat", "include/lalib/mat.hpp: invert, inverted", "include/lalib/ops/orthogonal.hpp: cgs", "include/lalib/solver/internal/tdma.hpp: tdma", "include/lalib/solver/cholesky_factorization.hpp: constructors, solve_linear, solve_linear_mut", "include/lalib/solver/ilu.hpp: constructor, solve", "include/lalib/solver/gmres.hpp: constructor, solve"]}
{"id": "C95", "title": "Executable IEEE numbers: runs of the library with double can be computed, bit for bit", "statement": "An executable floating-point type (sign, integer significand, exponent, infinities, NaN) has the IEEE operations: sum, difference, product, quotient, square root, negation, comparison and test for zero give the number that rounding the exact real result to nearest, ties to even, gives, with signed zeros, subnormal numbers and overflow, in every binary format. Every IEEE number has an executable form; a decimal literal becomes the nearest number. Calling a function of the library with executable numbers gives the result of calling it with IEEE numbers: scalar products in any shape of the reduction, norms, sums, scalings, axpy, matrix products and sums, sparse sums, conversions and products, the tri-diagonal solver, both Cholesky factorisations and solves, Gram-Schmidt, incomplete LU, GMRES; also when the call fails.", "quantifier": "all binary formats (float, double), all numbers including zeros, subnormals, infinities and NaN, all data and sizes for the calls", "why_tests_cant": "correct rounding cannot be tested for all pairs of operands, and the equality of two runs is a statement about all data", "anchors": ["include/lalib/ops/vec_ops.hpp: dot, add, sub, scale, axpy", "include/lalib/vec/dyn_vec.hpp: dot, norm2", "include/lalib/ops/mat_vec_ops.hpp: mul", "include/lalib/ops/mat_mat_ops.hpp: mul", "include/lalib/ops/mat_mat_ops.hpp: add, sub", "include/lalib/mat/sp_mat.hpp: class SpCooMat, SpMat", "include/lalib/ops/mat_vec_ops_core.hpp: _sp_mul_core", "include/lalib/solver/internal/tdma.hpp: tdma", "include/lalib/solver/cholesky_factorization.hpp: constructors, solve_linear, solve_linear_mut", "include/lalib/ops/orthogonal.hpp: cgs", "include/lalib/solver/ilu.hpp: constructor, solve", "include/lalib/solver/gmres.hpp: constructor, solve"]}
{"id": "C96", "title": "Division of a vector by a number in floating-point arithmetic", "statement": "v / alpha should have the elements v_i / alpha. In IEEE arithmetic it has the elements (1 / alpha) * v_i, the reciprocal rounded, and the call returns for all data. If the reciprocal is exact, in particular if alpha is plus or minus a power of two whose reciprocal is in range, every element is the IEEE quotient, signs of zero, infinities and NaN included. If the reciprocal neither overflows nor underflows, a finite element has a relative error of at most 2u + u^2, plus half the smallest positive number if the product underflows. If the reciprocal overflows, which happens exactly if alpha is zero or so small that 1/|alpha| rounds to infinity, zero elements become NaN and other finite elements become infinite, whatever their quotients. In double precision {49} / 49 is not {1}, and with the smallest positive number d, {0, d} / d is {NaN, infinity} instead of {0, 1}.", "quantifier": "all binary formats, all vectors and divisors, zeros, subnormal numbers, infinities and NaN included", "why_tests_cant": "the tests divide by one or two numbers; the first integer for which v / v is not 1 is 49, and the divisors with an infinite reciprocal are subnormal", "anchors": ["include/lalib/ops/vec_ops.hpp: operator/"]}
{"id": "C97", "title": "How many steps GMRES takes, and when its result is exact", "statement": "In exact arithmetic, for a regular matrix with an incomplete factorisation without zero pivots and a right-hand side other than zero, the result of Gmres.solve is a combination of k Krylov vectors (k is the number of steps of the loop) with: (1) if elimination makes no fill-in, the result is the exact solution, whatever the tolerance; (2) if the product of the incomplete factors differs from the matrix by rank r, then k <= r + 1, and for k = r + 1 the result is the exact solution; (3) if the positions of fill-in, judged by the positions of the stored elements, lie in R rows and Q columns, then k <= R + Q + 1; a tri-diagonal matrix with two corner elements (periodic boundary) takes at most 3 steps for every size; (4) if P^-1 (P - A) shrinks all vectors by a factor q, the residual after k steps is at most q^k times that of the start; if P^-1 A is positive definite with bounds alpha and beta, the square of the residual is at most (1 - alpha^2/beta)^k times that of the start; k is at most the first m for which these bounds are below the tolerance; (5) a larger tolerance never takes more steps, a smaller one never gives a larger residual.", "quantifier": "all ordered fields with square roots, all sizes, both matrix classes, all matrices, right-hand sides and tolerances satisfying the hypotheses", "why_tests_cant": "the bounds are for all sizes and matrices; the tests solve a few systems", "anchors": ["include/lalib/solver/gmres.hpp: Gmres::solve, _arnoldi, _givens_rot", "include/lalib/solver/ilu.hpp: Ilu constructor, solve"]}
{"id": "C98", "title": "Iterative solvers over a matrix of the caller", "statement": "Ilu<T, X&> and Gmres<T, X&>, where X is a matrix class, keep a reference to the matrix x they are constructed from. (1) The constructor of Ilu<T, X&> overwrites x with the incomplete factors; it fails as that of Ilu<T, X> does, and then leaves x half overwritten: the rows above the one in which the elimination stopped are factorised, the ones below and the rest of that row are untouched. A second solver over x factorises the factors and changes what the first one returns. (2) Gmres<T, X&> takes both its matrix and its preconditioner from x after the factorisation: in exact arithmetic its result is the GMRES vector of the system F x = b, F being the factors packed into one matrix, preconditioned with their product. (3) The results approach solutions of the original system as the tolerance goes to zero, for all right-hand sides other than zero, if and only if the factorisation left x as it was (as for upper triangular matrices); otherwise there is a right-hand side for which the residual does not approach zero. For the regular matrix [2 0; 2 1] and b = (2, 1) no failure is reported and the residual is at least 1/2.", "quantifier": "all matrices with a factorisation without zero pivots whose packed factors are regular (2, 3); all matrices (1); both storage classes of Gmres, three of Ilu; all right-hand sides and tolerances", "why_tests_cant": "the tests only build solvers that own their matrix", "anchors": ["include/lalib/solver/ilu.hpp: Ilu constructor, solve, _mat", "include/lalib/solver/gmres.hpp: Gmres constructor, _mat, _lu, solve"]}
{"id": "C99", "title": "Sums on an accelerator", "statement": "With LALIB_USE_ACCELERATOR the sums and differences of vectors and matrices of 16 elements or more run in an OpenMP target region without map clauses. (1) On a device that shares the memory of the host, and for less than 16 elements on any device, the outcome is the same as without the accelerator and copies on the device are left alone. (2) On a device with its own memory the call is undefined behaviour if one of the three objects has not been mapped by the program; so x + y and x - y are undefined for all vectors and matrices of 16 elements or more, because the operator creates the result object itself. (3) If all three are mapped, the copy of the result receives the sum of the copies, and no object of the caller changes: the caller sees the right result exactly if it was there before the call. (4) target update to(x, y), add(x, y, z), target update from(z) gives the right result for 16 elements or more, and loses it for less.", "quantifier": "all vectors and matrices, all mappings of objects to the device, all orders of the iterations, any arithmetic", "why_tests_cant": "needs a device with its own memory; on the host fallback everything looks right", "anchors": ["include/lalib/ops/vec_ops_core.hpp: __add_core_accelerator, __sub_core_accelerator, add_core, sub_core", "include/lalib/ops/vec_ops.hpp: add, sub, operator+, operator-", "include/lalib/ops/mat_mat_ops.hpp: add, sub, operator+, operator-"]}
{"id": "C100", "title": "Incomplete LU factorisation over the structured matrix classes", "statement": "Ilu<T, M> for the classes other than DynMat, SizedMat, SpCooMat and SpMat. (1) Constructing it from a tri-diagonal matrix with three rows or more always throws: invalid_argument for DynTriDiagMat, out_of_range for SizedTriDiagMat. (2) From a DynUpperTriMat with two rows or more it always throws invalid_argument. (3) From a HessenbergMat with three rows or more it always throws: runtime_error if the first pivot is zero and the element below is not, else invalid_argument. (4) For fewer rows these classes behave like dense matrices: the factorisation is stored, or runtime_error is thrown exactly if there is none, and solve gives the solution if the elimination makes no new non-zero elements and all leading minors are non-zero. (5) For the lower-triangular and Hermitian classes construction returns or throws runtime_error, and diagonal matrices are solved correctly; but since (i, j) and (j, i) are one element, a 2 x 2 matrix with first element p and off-diagonal element c is solved correctly for all right-hand sides exactly if c = 0 or p = 1.", "quantifier": "all sizes, all element values; (1) and (2) in any arithmetic, the rest in exact arithmetic", "why_tests_cant": "the template accepts the classes, so only a run for each class and size shows that the constructor can never succeed; the wrong solutions of (5) look like those of a preconditioner", "anchors": ["include/lalib/solver/ilu.hpp: Ilu, _decomp_lu_inplace, solve", "include/lalib/mat/dyn_mat.hpp: operator() and mut_at of DynTriDiagMat, HessenbergMat, DynUpperTriMat, DynLowerTriMat, DynHermiteMat", "include/lalib/mat/sized_mat.hpp: operator() and mut_at of SizedTriDiagMat, SizedLowerTriMat, SizedHermiteMat"]}
{"id": "C101", "title": "What the exception for a size mismatch tells", "statement": "The text of vec_error::SizeMismatched(n1, n2, message) is a heading, a line for each vector that ends with the decimal numeral of its size, and the message; it determines n1, n2 and the message. A caller who catches the exception of a sum, a difference or the member function dot of vectors of different sizes is told the size of the first and of the second operand, in this order. Handlers for std::runtime_error and std::exception take it, handlers for std::logic_error do not; every exception of the library is taken by a handler for std::exception.", "quantifier": "all sizes, all messages, all pairs of vectors of different sizes, all exceptions of the library", "why_tests_cant": "the numerals of all pairs of sizes, and that no two texts agree, cannot be enumerated", "anchors": ["include/lalib/err/error.hpp: SizeMismatched", "include/lalib/ops/vec_ops.hpp: __check_size, add, sub", "include/lalib/vec/dyn_vec.hpp: __check_size, dot"]}
{"id": "C102", "title": "Calls made by several threads", "statement": "Threads of a program call neg, add, sub, axpy, scale, dot, mul of a dense or CSR matrix and a vector, mul of matrices, add and sub of matrices, solve_linear of a TriDiag (without LAPACK) and solve_linear_mut of a Cholesky or modified Cholesky factorisation, for vectors and matrices, Ilu::solve and Gmres::solve over DynMat and SpMat with a copy of the result to a vector, any number of calls each, with a try block around each call. If every object that is written belongs to one thread, and the operands and the solver of a call belong to its thread or to nobody, then for every order of the single loads and stores, also within the teams of the parallel sums: no access fails, there is no data race, the program can always be finished, and at the end each object has the value its thread gives it when it runs alone; shared objects are unchanged. So const access to one object from several threads is safe, as for containers of the standard library, and a solver can be shared; the arithmetic is arbitrary, also IEEE. With the LAPACK backend a TriDiag cannot be shared: solve_linear writes to its diagonals, and two threads with results of their own race unless the first column is zero. Without the condition it fails: two threads that scale the same vector, and a thread that scales a vector which another one reads, have a race for all non-empty vectors, and two calls axpy(1, x, y) can end with x added once.", "quantifier": "all numbers of threads, all sequences of calls, all sizes and element values, all orders of the accesses", "why_tests_cant": "the interleavings of the accesses cannot be enumerated, and a race rarely shows", "anchors": ["include/lalib/ops/vec_ops.hpp: neg, add, sub, axpy, scale", "include/lalib/vec/dyn_vec.hpp: dot", "include/lalib/ops/vec_ops_core.hpp", "include/lalib/ops/mat_vec_ops_core.hpp: __mul_core_simd, _sp_mul_core", "include/lalib/ops/mat_mat_ops_core.hpp: __mul_core_simd", "include/lalib/ops/mat_vec_ops.hpp: mul", "include/lalib/ops/mat_mat_ops.hpp: mul, add, sub", "include/lalib/solver/ilu.hpp: Ilu::solve", "include/lalib/solver/gmres.hpp: Gmres::solve"]}
{"id": "C103", "title": "Iteration with incomplete LU factors converges for matrices with a dominating diagonal", "statement": "A user repeats x = x + ilu.solve(b - a * x) with an Ilu object made from a. In exact arithmetic: let w be positive weights with |a_ii| w_i > sum over j != i of |a_ij| w_j in every row (the gap of the row is the difference). Then, whatever entries the factorisation drops, no call fails, and if the error of x is at most s w_i in every component i, it is at most s rho^k w_i after k repetitions, for every rho >= 0 with rho >= 1 - gap_i / (2 |a_ii| w_i) in all rows; so from every start the iterates come and stay as close to the solution as one likes. For an M-matrix the 2 can be left out (the rate of Jacobi's iteration), and from a start with A x <= b the iterates grow and never exceed the solution. For every matrix with factors without zero pivot a step changes nothing exactly at the solutions of the system. The loop which stops when (y - x).norm2() < tol for the new vector y and the old x ends for every tol > 0, and then |y_i - z_i| <= rho tol w_i / ((1 - rho) min w) for the solution z (rho < 1 as above, M-matrices without the 2). Without a dominating diagonal the iteration can diverge although the factorisation succeeds and the matrix is regular: there is a matrix of order 3 for which a component of the error is multiplied by -2 in every step. With rounding: let every operation have a relative error of at most u, also when multiplications and additions are contracted, let gap_i >= d |a_ii| w_i in all rows with 0 < d <= 1, and let 32 G <= d^2 for G = (2n+6)(1/(1-u)^(6n+3) - 1). Then the constructor does not throw, no call fails, and if |z_i| <= Z w_i for the exact solution z, the error after k repetitions is at most ((1 - d/8)^k s + 24 G Z / d^2) w_i; so the iterates come and stay close to the solution up to a relative error of the order of u.", "quantifier": "all ordered fields (Archimedean ones for the limit) and all arithmetics with bounded relative errors, all n, matrices with the condition, patterns, right-hand sides, starting vectors, numbers of steps, the classes DynMat and SpMat, all orders of the parallel sums", "why_tests_cant": "a statement about all numbers of steps and all patterns of dropped entries; a test sees a few steps for one matrix", "anchors": ["include/lalib/solver/ilu.hpp: Ilu ctor, Ilu::solve", "include/lalib/ops/mat_vec_ops.hpp: operator*", "include/lalib/ops/vec_ops.hpp: operator+, operator-"]}
{"id": "C104", "title": "GMRES for matrices with a dominating diagonal: number of steps, and what the tolerance says about the error", "statement": "In exact arithmetic let w be positive weights with |a_ii| w_i > sum over j != i of |a_ij| w_j in every row (the gap of the row is the difference), b != 0 and tol > 0. Then the Gmres constructor does not throw and solve(b) returns a vector x after k <= n steps, whatever entries the incomplete factorisation drops. Let rho >= 0 with rho >= 1 - gap_i / (2 |a_ii| w_i) in all rows, and |b_i| <= t gap_i. Then (1) the preconditioned residual after k steps is at most t rho^k |w| (Euclidean norms), and k is at most every m >= 1 with t rho^m |w| < tol; for constant weights this number of steps grows with the size only as the logarithm of sqrt(n); (2) for rho < 1 the tolerance bounds the distance to the solution: |s_i - x_i| <= tol w_i / ((1 - rho) min w). For an M-matrix the 2 can be left out.", "quantifier": "all ordered fields with square roots, all n, matrices with the condition, patterns, right-hand sides, tolerances, weights, the classes DynMat and SpMat", "why_tests_cant": "a statement about all sizes and patterns; a test sees the number of steps of one system, and cannot see the exact solution", "anchors": ["include/lalib/solver/gmres.hpp: Gmres ctor, Gmres::solve", "include/lalib/solver/ilu.hpp: Ilu ctor, Ilu::solve"]}
{"id": "C105", "title": "The solvers agree with each other and are inverse to the product", "statement": "In exact arithmetic: (1) Let A be symmetric positive definite without fill-in and b != 0. Then DynCholeskyFactorization, DynTriCholeskyFactorization and DynModCholeskyFactorization (its kernels also in packed storage), Ilu and Gmres (any tolerance > 0), over DynMat or SpMat, all succeed on A and b and return one and the same vector x, and A * x gives b. If A is moreover tri-diagonal of order at least 2, TriDiag's solve_linear returns x as well, with the internal and with the LAPACK backend. (2) There and back: for a positive definite matrix (Cholesky), a symmetric matrix with non-zero leading minors (modified Cholesky), a matrix with non-zero leading minors and no fill-in (Ilu; Gmres for x != 0), solve(A * x) returns x, and for the direct solvers A * solve(b) returns b, with or without fill-in for the Cholesky variants.", "quantifier": "all ordered fields with square roots (all fields for modified Cholesky and Ilu), all n, matrices with the condition, right-hand sides, tolerances, storages, contents of memory", "why_tests_cant": "eight code paths for one system compared on all inputs; a test compares a few of them on one matrix, up to rounding", "anchors": ["include/lalib/solver/cholesky_factorization.hpp", "include/lalib/solver/ilu.hpp: Ilu::solve", "include/lalib/solver/gmres.hpp: Gmres::solve", "include/lalib/solver/tri_diag.hpp", "include/lalib/ops/mat_vec_ops.hpp: mul"]}
{"id": "C106", "title": "Programs over SizedVec and SizedMat objects, and references into them", "statement": "Take any program over named SizedVec<T, N> and SizedMat<T, N, M> objects of all sizes (and DynVec objects where an overload takes both kinds): construction from a list, uninit, filled, diag, identity, copy and move assignment, writing an element, add, sub, neg, axpy, scale, dot, mul with result parameters, and the operators. Operands and results may be the same objects. (1) It does to the objects what the formulas say about the vectors and matrices they represent: the same final values and the same exception of each statement (a list of the wrong length, a DynVec of the wrong size), an exception leaving all objects as they were; or the same end of the program (the assertion in mul with a DynVec). This holds for every order in which parallel loops run. (2) A reference, pointer or iterator to an element of a SizedVec or SizedMat refers to that element for as long as it is not given a new value itself: no statement invalidates it, also not an assignment to the whole object, a move, or a statement that throws; what is read through it is that component of the final value. (For DynVec and DynMat this is false, see C78.) (3) For a DynVec it holds until the DynVec is replaced.", "quantifier": "all commutative rings, programs, sizes, numbers of objects, contents, orders of parallel loops, builds with and without NDEBUG, for programs whose indices are in range and whose inner products are of non-empty vectors, the second one not shorter", "why_tests_cant": "programs of any length over any number of objects of any sizes, with all overlaps of operands and results and references held across; the tests copy one object once", "anchors": ["include/lalib/vec/sized_vec.hpp: operator=, begin, cbegin, data, uninit, filled, dot", "include/lalib/mat/sized_mat.hpp: operator=, operator(), at, mut_at, begin, data, uninit, filled, diag, identity", "include/lalib/ops/vec_ops.hpp: add, sub, neg, axpy, scale", "include/lalib/ops/mat_ops.hpp: scale", "include/lalib/ops/mat_vec_ops.hpp: mul", "include/lalib/ops/mat_mat_ops.hpp: add, sub, mul"]}
{"id": "C107", "title": "Selecting, renumbering and transposing", "statement": "(1) In every arithmetic, bit for bit: if the rows of A' are rows f(0), f(1), .. of A and the columns of B' are columns g(0), g(1), .. of B (some of them, in any order, also repeatedly), then entry (i, j) of mul(alpha, A', B', beta, C') is entry (f(i), g(j)) of mul(alpha, A, B, beta, C); likewise for the product with a vector, dense and sparse. (2) Where a product does not depend on the order of its two factors and one is neutral (IEEE 754 numbers, NaN and infinities included): B^T * A^T is exactly the transpose of A * B, A * A^T is exactly symmetric, dot(x, y) = dot(y, x). (3) In exact arithmetic: for positive definite A and invertible M the Cholesky and the modified Cholesky solver, in either storage, accept M^T A M, and for the right-hand side M^T b return the x' with M x' = solve(A, b); in particular unknowns and equations in another order give the components of the solution in that order. Incomplete LU and GMRES: the same for A' = P A Q when neither matrix has fill-in. The tri-diagonal solver on the system in the opposite order returns the reversed solution, if both matrices qualify for it (C34), e.g. by diagonal dominance. (4) What does depend on the order: whether the tri-diagonal solver works at all, and whether incomplete LU solves the system exactly (an arrow matrix in its two orders).", "quantifier": "all types with the operations named (1, 2), all ordered fields with exact roots (3), all sizes, selections, permutations, invertible matrices, right-hand sides, builds with and without NDEBUG", "why_tests_cant": "all selections of rows and columns and all changes of variables at once; relations between two runs rather than values; the tests compare single results with numbers", "anchors": ["include/lalib/ops/mat_mat_ops.hpp: mul, operator*", "include/lalib/ops/mat_vec_ops.hpp: mul", "include/lalib/ops/vec_ops.hpp: dot", "include/lalib/solver/cholesky_factorization.hpp: DynCholeskyFactorization, DynModCholeskyFactorization, solve_linear", "include/lalib/solver/tri_diag.hpp: TriDiag::solve_linear", "include/lalib/solver/ilu.hpp: Ilu ctor, Ilu::solve", "include/lalib/solver/gmres.hpp: Gmres::solve"]}
{"id": "C108", "title": "Leading blocks", "statement": "In every arithmetic (IEEE 754 numbers, infinities and NaN included) and for every matrix: if the constructor of the Cholesky, modified Cholesky or incomplete LU class accepts a matrix, it accepts each of its leading square blocks, in any storage class, and the factor of the block is, bit for bit, the block of the factor; so a matrix whose leading block is refused is refused. The last components of a back substitution are those of the back substitution with the trailing block. cgs on the first J vectors of a range leaves them as cgs on the whole range does, and if it fails on the first J it fails on the whole range.", "quantifier": "all types with the operations used (a root of a positive number is not zero; a division by something not zero has a result), all orders k <= n, matrices, storage classes of matrix and block, right-hand sides, numbers of vectors", "why_tests_cant": "relates two runs for all matrices and all their blocks; the tests factor single matrices", "anchors": ["include/lalib/solver/cholesky_factorization.hpp: DynCholeskyFactorization, DynModCholeskyFactorization", "include/lalib/solver/internal/cholesky_decomposition.hpp: cholesky_decomposition, mod_cholesky_decomposition", "include/lalib/solver/ilu.hpp: Ilu ctor, Ilu::solve", "include/lalib/mat/dyn_mat.hpp: DynUpperTriMat::back_sub", "include/lalib/ops/orthogonal.hpp: cgs"]}
{"id": "C109", "title": "What the factors tell: determinants, signs and numbers of eigenvalues", "statement": "(1) In exact arithmetic, read from the objects returned by factor_mat(), lower_mat(), Ilu::mat(): for a symmetric matrix A accepted by the modified Cholesky class the product of the first k diagonal entries is the leading minor of A of order k, for every k <= n, the determinant for k = n; for positive definite A the same with the squares of the diagonal of the Cholesky factor; for incomplete LU without fill-in the product of the first k diagonal entries. After cgs the product of the squared lengths of the first k vectors is the Gram determinant of the first k given vectors. (2) For symmetric A accepted by the modified Cholesky class, the number of negative diagonal entries of the factor is the largest dimension of a space on which the form x^T A x is negative, the number of positive ones the largest dimension of a space on which it is positive, and they add up to n; A is positive definite iff all are positive. (3) Over the reals, if A - s I is accepted, the number of negative diagonal entries is the number of eigenvalues of A below s, with multiplicity. (4) In rounded arithmetic the number of negative diagonal entries of the computed factor is at least the number of eigenvalues below s - e and at most that below s + e, where e bounds the row sums of |stored matrix - (A - s I)| plus gamma(n+1) |L| |D^-1| |L^T|; with IEEE 754 numbers, for a factor with finite entries, plus a multiple of the smallest positive number.", "quantifier": "all fields (1, determinants of modified Cholesky and incomplete LU), all ordered fields (2, cgs), with exact roots (Cholesky), the reals (3), all rounding functions with unit roundoff u < 1 and all IEEE formats (4); all sizes, symmetric matrices, shifts, storages", "why_tests_cant": "statements about all subspaces, and about eigenvalues, which no function of the library computes; the tests compare single factors with numbers", "anchors": ["include/lalib/solver/cholesky_factorization.hpp: DynModCholeskyFactorization, DynCholeskyFactorization, DynTriCholeskyFactorization, factor_mat, lower_mat", "include/lalib/solver/internal/cholesky_decomposition.hpp: cholesky_decomposition, mod_cholesky_decomposition", "include/lalib/solver/ilu.hpp: Ilu ctor, mat", "include/lalib/ops/orthogonal.hpp: cgs"]}
{"id": "C110", "title": "Superposition, and the inverse matrix from the solvers", "statement": "In exact arithmetic: (1) solving is linear: the solution for s*b + t*d is s times the solution for b plus t times the solution for d, for Cholesky and modified Cholesky with any stored factor without zeros on the diagonal (whatever it came from, both storages, in place or not), for the tri-diagonal solver with non-vanishing leading minors, for Ilu::solve with any fill-in and non-zero pivots, and for back_sub. (2) solve_linear with identity(n) as right-hand side returns the inverse X: mat * X = X * mat = identity(n) with the library's products, and X * v is what solve_linear(v) returns for every v; X is symmetric for symmetric matrices (modified Cholesky), and also positive definite for Cholesky; the same for the tri-diagonal solver, with the right-hand side possibly the result matrix itself. (3) Without fill-in the vectors that Ilu::solve and GMRES (any positive tolerance) return for the unit vectors are the columns of one matrix, the inverse. (4) GMRES is not additive: it solves for b and for -b and has no finite result for their sum.", "quantifier": "all fields, all ordered fields for Cholesky, incomplete LU and GMRES (with exact roots); all sizes, matrices in the stated domains, right-hand sides, factors s and t, buffers", "why_tests_cant": "relations between several calls, and between solvers and products, for all right-hand sides", "anchors": ["include/lalib/solver/cholesky_factorization.hpp: solve_linear, solve_linear_mut", "include/lalib/solver/internal/cholesky_decomposition.hpp: cholesky_linear, mod_cholesky_linear", "include/lalib/solver/tri_diag.hpp: solve_linear", "include/lalib/solver/ilu.hpp: solve", "include/lalib/solver/gmres.hpp: solve", "include/lalib/mat/dyn_mat.hpp: DynUpperTriMat::back_sub", "include/lalib/mat/dyn_mat.hpp: identity", "include/lalib/ops/mat_mat_ops.hpp: operator*", "include/lalib/ops/mat_vec_ops.hpp: operator*"]}
{"id": "C111", "title": "Computed certificates: regularity, error of an approximate solution, positive definiteness", "statement": "In floating point, from results of the library alone: (1) for any matrices a and x, compute c := identity(n) - x * a with mul(-1, x, a, 1, c). If the absolute row sums of c, plus explicit bounds for the rounding errors, are at most q < 1, then a is regular, max |v| <= K / (1 - q) * max |a v| for K a bound of the row sums of x, and the exact solution of a z = b is within q * Y / (1 - q) of the exact product x b, where Y = max |x b|. (2) For such a matrix the equation a z = y has a solution, and one computed residual y - a * v bounds the distance of any v from it. (3) If DynCholeskyFactorization or DynTriCholeskyFactorization accepts a symmetric matrix B with positive first entry, and |B - (A - s I)| <= G, then A - (s - eps) I is positive definite, with eps the largest row sum of G plus the rounding bounds formed from the computed factor; so A itself is positive definite as soon as eps <= s.", "quantifier": "(1), (3): every rounded arithmetic and every IEEE format (finite results, subnormal results covered); (2): every IEEE format; all sizes and matrices, whichever way x and v were obtained; both storages for (3)", "why_tests_cant": "the conclusion is about exact solutions and about all eigenvalues, which no run can observe; the premises are what a run shows", "anchors": ["include/lalib/ops/mat_mat_ops.hpp: mul", "include/lalib/ops/mat_vec_ops.hpp: mul", "include/lalib/mat/dyn_mat.hpp: identity", "include/lalib/solver/cholesky_factorization.hpp: DynTriCholeskyFactorization, DynCholeskyFactorization", "include/lalib/solver/internal/cholesky_decomposition.hpp: cholesky_decomposition"]}
{"id": "C112", "title": "What the results minimise: energy, sums of squares, distance from a span", "statement": "In exact arithmetic: (1) the solution x that Cholesky and modified Cholesky return for a symmetric positive definite matrix A is the one and only minimiser of y.Ay - 2 b.y; the minimum is -b.x, and (b.y)^2 <= (b.x)(y.Ay) for every y. (2) If y.Ay <= y.By for all y, then b.z <= b.x for the Cholesky solutions z of B z = b and x of A x = b. (3) Least squares: with t the transpose of a matrix a with p rows and n columns, c = t * a, d = t * b: if the columns of a are independent, the Cholesky factorisation of c completes and solve_linear(d) is the only vector x for which a * x is closest to b, with b - a * x orthogonal to every column; if they are dependent and the first is not zero, the factorisation throws std::runtime_error. (4) cgs applied to M independent vectors followed by any vector b returns, and leaves in the place of b the vector w with b - w the only combination of the M vectors closest to b; w.w is the square of the distance; it is zero exactly when b is a combination of them.", "quantifier": "all ordered fields (with exact roots for Cholesky), all sizes, matrices, right-hand sides and competitors y; in place or not, NDEBUG or not; both storages for (1), (2); DynVec and SizedVec for (4)", "why_tests_cant": "minimality compares the result with infinitely many other vectors", "anchors": ["include/lalib/solver/cholesky_factorization.hpp: solve_linear, solve_linear_mut, DynCholeskyFactorization, DynTriCholeskyFactorization, DynModCholeskyFactorization", "include/lalib/ops/mat_mat_ops.hpp: operator*", "include/lalib/ops/mat_vec_ops.hpp: operator*", "include/lalib/ops/orthogonal.hpp: cgs"]}
{"id": "C113", "title": "Cramer's rule, integer data, rank-one changes", "statement": "In exact arithmetic: (1) for the vector x returned by Cholesky, modified Cholesky, the tri-diagonal solver, Ilu::solve without fill-in, and back_sub: det(A) * x_i is the determinant of A with column i replaced by the right-hand side. So for integer entries det(A) * x_i is an integer, and x itself is made of integers if det(A) is 1 or -1. (2) Let x and y be the Cholesky solutions for A with the right-hand sides b and u. The changed matrix A + t u u^T has determinant det(A) (1 + t u.y); if 1 + t u.y > 0 (always so for t >= 0) its factorisation completes and solve_linear(b) on it returns x - t (u.x) / (1 + t u.y) y; if not, and its first entry is still positive, the constructor throws std::runtime_error. (3) The same formula for modified Cholesky, for every symmetric matrix it accepts before and after the change, where 1 + t u.y is never zero.", "quantifier": "all fields (ordered, with exact roots, for Cholesky), all sizes, matrices in the stated domains, right-hand sides, vectors u and factors t of either sign; both storages; in place or not for (1)", "why_tests_cant": "relates the results of several solver calls on different matrices for all data; a rank-one change of the matrix is never exercised", "anchors": ["include/lalib/solver/cholesky_factorization.hpp: solve_linear, solve_linear_mut, DynCholeskyFactorization, DynTriCholeskyFactorization, DynModCholeskyFactorization", "include/lalib/solver/tri_diag.hpp: solve_linear", "include/lalib/solver/ilu.hpp: Ilu, solve", "include/lalib/mat/dyn_mat.hpp: DynUpperTriMat::back_sub"]}
{"id": "C114", "title": "Subsystems, and elimination in two stages", "statement": "In exact arithmetic: (1) if equations f(0), .., f(k-1) of a symmetric positive definite system contain no other unknowns than those with the same numbers, then factorising and solving these k equations alone gives, in component i, what the solution of the whole system has in component f(i). (2) Instead of factorising a symmetric matrix of order p+q one can factorise its leading block of order p, call solve_linear on the block A12 (matrix right-hand side) giving Y and on the first p components b1 giving z, factorise A22 - A21 Y, and solve for b2 - A21 z giving y: the second factorisation completes too, x = (z - Y y, y) is what solve_linear on the whole matrix returns, and det(A) = det(A11) det(A22 - A21 Y). With Cholesky for positive definite matrices (A22 - A21 Y is positive definite again); with modified Cholesky for every symmetric matrix which it accepts.", "quantifier": "all fields (ordered, with exact roots, for Cholesky), all sizes p, q and n, k, all choices of equations in any order, matrices in the stated domains, right-hand sides, memories; both storages", "why_tests_cant": "relates several constructor and solve calls of different sizes for all data; tests check single systems", "anchors": ["include/lalib/solver/cholesky_factorization.hpp: solve_linear, DynCholeskyFactorization, DynTriCholeskyFactorization, DynModCholeskyFactorization"]}
{"id": "C115", "title": "Implicit time steps with the solvers", "statement": "A user repeats add(x, f, x); solve_linear(x, x) (solve_linear_mut(x) for the factorisation classes), so that A x_new = x_old + f, as for the heat equation. In exact arithmetic, for a matrix without positive entries outside the diagonal whose rows add up to 1 or more: (1) with TriDiag (order 2 or more) no step fails; with Cholesky and modified Cholesky no step fails if the factorisation was accepted; only x changes. (2) If lo <= x <= hi and flo <= f <= fhi at the start, then lo + k flo <= x <= hi + k fhi after k steps, provided the rows add up to exactly 1 or the bounds enclose 0. (3) A smaller start and a smaller source give smaller values at all times. (4) If the columns add up to 1 the sum of the components changes by k times the sum of f, and nothing gets lost. (5) If every row adds up to c or more, c > 0, the distance of two runs with the same f, and the distance from a steady state A s = s + f, is divided by c at least in every step.", "quantifier": "all ordered fields, all orders, matrices in the stated domains, starts, sources, numbers of steps, orders of the parallel loop of add", "why_tests_cant": "a statement about all numbers of steps, in which the results of every step are the data of the next", "anchors": ["include/lalib/solver/tri_diag.hpp: solve_linear", "include/lalib/solver/internal/tdma.hpp: tdma", "include/lalib/solver/cholesky_factorization.hpp: solve_linear_mut", "include/lalib/ops/vec_ops.hpp: add"]}
{"id": "C116", "title": "Implicit time steps in floating-point arithmetic", "statement": "The program of C115 (repeat add(x, f, x); solve_linear(x, x)) with rounded numbers, unit roundoff u. (1) With TriDiag and a diagonal which dominates (up to a factor (1-u)^2) no step fails; with Cholesky no step fails if the factorisation was accepted; only x changes; every step is the exact step with a relative error u in the sum and a change of the matrix by at most c in every row, c = 3 gamma_5 S for TriDiag (S: largest row sum of absolute values) and n gamma_(4n+2) amax for Cholesky (amax: largest diagonal entry). (2) If max|y| <= K max|A y| for all y, and the computed vectors of the first k steps are bounded by X and f by M, the distance from the exact evolution after k steps is at most (K + K^2 + ... + K^k) (c X + u (X + M)): errors add up, they are not amplified, if K = 1; for K < 1 they stay below K/(1-K) (c X + u (X + M)) for ever. (3) If K c < 1, X can be taken from the data: with g = K (1+u)/(1 - K c) the computed vector after k steps is bounded by g^k X0 + (g + ... + g^k) M. (4) With TriDiag matrices without positive entries outside the diagonal and with positive computed pivots, and monotone rounding: if the data of one run are non-negative and at most those of another (the start, the source; the matrix entry by entry at least), the computed vectors are non-negative and in the same order after any number of steps - exactly, not up to errors; in IEEE arithmetic as long as the numbers of the second run are finite.", "quantifier": "all roundings, all orders >= 2 (TriDiag), matrices in the stated domains, starts, sources, numbers of steps, orders of the parallel loop of add", "why_tests_cant": "a bound on the accumulation of rounding errors over all numbers of steps; a run shows one trajectory, without the exact one beside it", "anchors": ["include/lalib/solver/tri_diag.hpp: solve_linear", "include/lalib/solver/internal/tdma.hpp: tdma", "include/lalib/solver/cholesky_factorization.hpp: solve_linear_mut", "include/lalib/ops/vec_ops.hpp: add"]}
{"id": "C117", "title": "Inverse iteration and power iteration", "statement": "A user repeats y = f.solve_linear(x); lam = dot(x, y)/dot(y, y); x = y/y.norm2() (inverse iteration), or y = A*x; lam = dot(x, y)/dot(x, x); x = y/y.norm2() (power iteration), for a symmetric positive definite matrix A and a start x which is not zero, in exact arithmetic. (1) No step fails: no norm and no divisor is zero; only x and y change, and x has length 1 after every step. (2) In the inverse iteration lam is the Rayleigh quotient of the new x, the numbers never increase, and none is below a lower bound of the quadratic form (that is, below the smallest eigenvalue); in the power iteration lam is the quotient of the old x, the numbers never decrease, and none is above an upper bound of the form (the largest eigenvalue). (3) Two successive numbers tell how far the vector is from an eigenvector: with r the quotient of x and r' that of A x, |A x - r x|^2 <= r (r' - r) |x|^2; so if the number does not move, x is an eigenvector and lam its eigenvalue. (4) solve_linear of both Cholesky classes, the tri-diagonal solver (order 2 or more, regular leading blocks) and the product of DynMat with DynVec are operations which these programs can use.", "quantifier": "all ordered fields with square roots, all orders, symmetric positive definite matrices, non-zero starts, numbers of steps", "why_tests_cant": "a statement about all numbers of steps and all starts; the eigenvalues with which a test would compare are not available to the library", "anchors": ["include/lalib/solver/cholesky_factorization.hpp: solve_linear", "include/lalib/solver/tri_diag.hpp: solve_linear", "include/lalib/ops/vec_ops.hpp: dot", "include/lalib/vec/dyn_vec.hpp: DynVec::norm2", "include/lalib/ops/mat_vec_ops.hpp: operator*"]}
{"id": "C118", "title": "Nonlinear systems with a factorised matrix, in floating-point arithmetic", "statement": "A user solves F(x) = 0 by repeating r = F(x) (a function of their own); the solver replaces r by the solution of A d = r; sub(x, r, x). The matrix A is factorised once. All operations of the library are rounded, and the caller's function has an error of at most phi. Let s be a zero of F, and let |F(x) - A (x - s)| <= L |x - s| for the vectors x within rho of s. K bounds the inverse of A, S its rows and c the rows of the solver's backward error, with K c < 1. (1) One step writes only x and r, and the new distance from s is at most q e + w, where e is the old one, q = (1+u) K (L + c K (S+L)/(1 - K c)) and w = (1+u) K (phi + c K phi/(1 - K c)) + u |s|. (2) If q rho + w <= rho, no number of steps fails or leaves the cube, and after k steps the distance is at most q^k e + (1 + q + ... + q^(k-1)) w. (3) If q < 1 it is at most q^k rho + w/(1 - q). (4) The tri-diagonal solver for a dominating diagonal and Cholesky for every matrix which it accepts are solvers of this kind, with the backward errors of C60 and C59. (5) For A x + g(x) = b with g acting on each component, L is the Lipschitz constant of g near s. With the tri-diagonal solver and a diagonal which dominates by delta, all of this holds with K = 1/delta.", "quantifier": "all roundings, orders, functions F with a zero s, matrices with the stated bounds, starts in the cube, numbers of steps, and functions of the caller with the stated error", "why_tests_cant": "the bounds hold for every function and every rounding; a test fixes one function and cannot see how far the computed vector is from a zero that is not known", "anchors": ["include/lalib/solver/cholesky_factorization.hpp: solve_linear_mut", "include/lalib/solver/tri_diag.hpp: solve_linear", "include/lalib/ops/vec_ops.hpp: sub"]}
{"id": "C119", "title": "Newton's method with the solvers", "statement": "The program of C118 with a matrix that is computed again from x, factorised and used once in every step. Let s be a zero of F, and let the stored matrix A predict the value at x up to (M e + eta) e for vectors at distance at most e from s, within a cube of radius rho: the term M e^2 is the second order of F, eta the error of the stored matrix. (1) One step fails nowhere, writes only x and r, and the new distance is at most a e^2 + b e + w, where a = (1+u) K M (1 + c K/(1 - K c)), b is the rate of C118 with eta in place of L, and w is the rest of C118: errors of the matrix and of the solver cost the linear term, errors of the function and of the last subtraction the constant. (2) Without any error the distance after k steps is at most (K M e)^(2^k - 1) e, if K M rho <= 1: the number of correct digits doubles. (3) With errors, if the rate q for the whole cube is below 1 and w <= (1 - q) rho, no step leaves the cube, and the distance after k steps is at most q^k rho + w/(1 - q). (4) The tri-diagonal solver with a dominating diagonal, and the Cholesky factorisation with solve_linear_mut for matrices which it accepts, are solvers of this kind. (5) For A x + g(x) = b, M is the constant of the second-order error of the tangent of each g, and eta the row sums of the rounding errors in the stored matrix.", "quantifier": "all roundings, orders, functions F with a zero s, matrices computed by the caller with the stated bounds, starts in the cube, numbers of steps", "why_tests_cant": "quadratic convergence is a statement about all steps and all functions; in a test the rounding errors hide it after three or four steps, and the test cannot separate errors of the caller from errors of the library", "anchors": ["include/lalib/solver/cholesky_factorization.hpp: solve_linear_mut", "include/lalib/solver/tri_diag.hpp: solve_linear", "include/lalib/solver/internal/tdma.hpp: tdma", "include/lalib/ops/vec_ops.hpp: sub"]}
{"id": "C120", "title": "Conjugate gradients with the functions of the library", "statement": "A user solves A x = b with r = b - A x, p = r and the loop: while c = dot(r, r) is not zero: q = A*p; alpha = c/dot(p, q); axpy(alpha, p, x); axpy(-alpha, q, r); beta = dot(r, r)/c; scale(beta, p); axpy(1, r, p). A is symmetric positive definite, arithmetic is exact, the vectors have at least one element. (1) No pass fails, the divisor dot(p, q) is positive in every pass, and only x, r, p and q change. (2) r is always b - A x; each residual is orthogonal to all earlier residuals and directions, and the directions are conjugate: p_k . A p_i = 0. (3) Every pass lowers x.A x - 2 b.x, by c^2/dot(p, q); and after k passes no other combination of the k directions added to x gives a smaller value. (4) The loop ends after at most n passes, and then x solves the system. (5) The products of DynMat and of CSR matrices with distinct columns can be used for A*p.", "quantifier": "all ordered fields, orders n >= 1, symmetric positive definite matrices, right-hand sides, starts, numbers of passes", "why_tests_cant": "the end after n passes holds in exact arithmetic for all matrices; a test in floating point never sees a zero residual, and an error in one of the calls only makes the loop slower", "anchors": ["include/lalib/ops/vec_ops.hpp: dot", "include/lalib/ops/vec_ops.hpp: axpy", "include/lalib/ops/vec_ops.hpp: scale", "include/lalib/ops/mat_vec_ops.hpp: operator*"]}
{"id": "C121", "title": "Minimisation under linear conditions with two Cholesky factorisations", "statement": "A user minimises x.A x - 2 b.x under the q conditions C x = d, where A is symmetric positive definite and no condition is a combination of the others: factorise A; Y = solve_linear(C^T) (matrix right-hand side) and z = solve_linear(b); factorise C Y (order q); t = solve_linear(C z - d) with the second factors; x = z - Y t. In exact arithmetic: (1) the matrix C Y is symmetric positive definite, so the second factorisation completes too, with either storage; no call fails. (2) x satisfies all conditions. (3) For every y that satisfies them the value at y is the value at x plus (y-x).A (y-x); so x is a minimum, and the only one.", "quantifier": "all ordered fields with square roots, orders n and q, positive definite matrices, independent conditions, right-hand sides, storages of the two matrices, memories", "why_tests_cant": "that the second factorisation never fails and that the result is the only minimum are statements about all vectors y and all independent conditions", "anchors": ["include/lalib/solver/cholesky_factorization.hpp: solve_linear", "include/lalib/solver/internal/cholesky_decomposition.hpp: cholesky_linear"]}
{"id": "C122", "title": "Periodic tri-diagonal systems with two calls of the tri-diagonal solver", "statement": "A user solves a periodic system: a tri-diagonal matrix with the further entries beta (upper right) and alpha (lower left). They pass to the tri-diagonal solver the matrix with gamma taken from the first diagonal entry and alpha beta/gamma from the last (gamma not zero, all leading minors of this matrix not zero, order at least 2), solve for b into y and for u = (gamma,0,...,0,alpha) into z, divide c = (y[0] + g y[n-1]) / (1 + z[0] + g z[n-1]) with g = beta/gamma, and call axpy(-c, z, y). In exact arithmetic there are two outcomes and no third: either y holds the only solution of the periodic system, and nothing but y and z has changed; or the divisor is zero, and then the periodic matrix is singular (z is not zero and is sent to zero). So the program never refuses a regular periodic matrix once the two solves are possible. b may be the vector y.", "quantifier": "all fields, orders at least 2, tri-diagonal matrices, corners alpha and beta, gamma not zero, right-hand sides, memories, both build modes", "why_tests_cant": "that the division fails exactly for singular periodic matrices is a statement about all matrices; a test meets a zero divisor only by design", "anchors": ["include/lalib/solver/tri_diag.hpp: TriDiag::solve_linear", "include/lalib/ops/vec_ops.hpp: axpy"]}
