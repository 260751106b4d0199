{
 "C01": [
  "proved",
  "For every scalar type and operation (so also IEEE types), every aliasing pattern."
 ],
 "C02": [
  "proved",
  "add, sub and member dot throw with memory unchanged; the noexcept functions terminate."
 ],
 "C03": [
  "partial",
  "False of the code: every result vector shorter than the operands is written out of bounds (C03_add_oob, C03_sub_oob), and SizedVec::dot of every shorter DynVec reads out of bounds (C03_sized_dot_oob). Proved for result vectors at least as long as the operands and for DynVec operands of dot with at least N elements."
 ],
 "C04": [
  "proved",
  "All interleavings of load/load/store micro-steps; sequentially consistent memory."
 ],
 "C05": [
  "partial",
  "Proved for non-empty vectors in a commutative ring and every reduction tree; for empty vectors the code has undefined behaviour (C05_empty_ub)."
 ],
 "C06": [
  "proved",
  "Exact arithmetic in an ordered field with square roots."
 ],
 "C07": [
  "proved",
  ""
 ],
 "C08": [
  "proved",
  "Exact arithmetic for the division and module laws."
 ],
 "C09": [
  "proved",
  "Also for whole histories of writes (C09_history)."
 ],
 "C10": [
  "proved",
  ""
 ],
 "C11": [
  "partial",
  "False of the code: the constructor accepts every length (C11_never_rejects); with too little data an in-range read is undefined behaviour (C11_short_data_ub). Proved: with enough data every in-range position reads its row-major element."
 ],
 "C12": [
  "proved",
  "Internal backend, exact arithmetic (commutative ring). No 32-bit counter wrap, see C47."
 ],
 "C13": [
  "proved",
  "Internal backend, exact arithmetic (commutative ring); every overload that compiles."
 ],
 "C14": [
  "proved",
  ""
 ],
 "C15": [
  "proved",
  "Exact arithmetic in a commutative ring."
 ],
 "C16": [
  "proved",
  "Over any field; a non-finite intermediate is an outcome of its own."
 ],
 "C17": [
  "partial",
  "False of the code: BLAS gemv drops beta*y when x and y are the same vector, does not scale y when A has no columns; BLAS gemm gets a wrong leading dimension for non-square results (rejected or out of bounds). Proved equal for gemv with x != y and at least one column, and gemm with square results. CBLAS itself enters as its documented contract."
 ],
 "C18": [
  "partial",
  "Reads inside the band and all writes are proved. The claim that reads outside the band return 0 is false: the const overload returns a reference to a destroyed temporary at every off-band position (C18_read_off_band_false)."
 ],
 "C19": [
  "proved",
  "Sizes with 17 + 8*n below 2^64. The constructor theorem is for any square root that is exact on perfect squares below 2^64; C19_sqrt_double proves that of correctly rounded double arithmetic."
 ],
 "C20": [
  "partial",
  "History theorem proved against an abstract matrix that includes the hidden element (n,n-1) kept by extend_with on an empty matrix. Because of that hidden element the zero extension does not always show zeros (C20_extend_zero_false); placement theorems carry the suffix _partial."
 ],
 "C21": [
  "partial",
  "Acceptance, access and histories proved, with the square root as in C19. A wrong size is not reported: the constructor is noexcept, so the program terminates (C21_reject_false)."
 ],
 "C22": [
  "proved",
  "Any field; the range does not overlap the storage of the matrix."
 ],
 "C23": [
  "partial",
  "Hermitian pairs, injectivity and into_lower_mat proved. Lower-triangular matrices do not read 0 above the diagonal but the mirrored element (C23_lower_mirror, C23_lower_zero_false); Hermitian access does not conjugate (C23_conjugate_false)."
 ],
 "C24": [
  "proved",
  "std::sort is any function meeting LawfulSort (returns a permutation that is ordered when the comparison is a strict weak order); C24_sort_exists gives an instance."
 ],
 "C25": [
  "proved",
  "positions distinct"
 ],
 "C26": [
  "partial",
  "False in general: for += the exact domain on which the result is the sum is AddSafe (C26_add_iff). Outside it an element of B is lost, put in the wrong row's merge or memory past the end is read (C26_wrong_row_false, C26_past_end_false, C26_empty_lhs_false, C26_empty_rhs_false). A += A always doubles (C26_self). B unchanged: operands are values in the model."
 ],
 "C27": [
  "partial",
  "Same domain as C26; in addition the operators are noexcept."
 ],
 "C28": [
  "proved",
  "every sorted COO matrix; one with no stored element converts to zero rows"
 ],
 "C29": [
  "proved",
  "reads and updates for row indices below the number of rows; beyond that operator() reads past the row pointer array"
 ],
 "C30": [
  "partial",
  "proved for all n except that unit(0)*x is undefined (C30_unit_zero_false)"
 ],
 "C31": [
  "partial",
  "Proved for separate x and y and a matrix with a stored element. False for x = y (C31_alias_false); undefined with no stored element (C31_empty_false)."
 ],
 "C32": [
  "proved",
  "positions are literally the same arrays"
 ],
 "C33": [
  "partial",
  "Proved with at least one stored element; undefined without (C33_empty_false)."
 ],
 "C34": [
  "partial",
  "Proved for n >= 2 on the exact domain (all leading principal minors non-zero; otherwise a division by zero, C34_singular). False for n = 1: reads du[0] out of bounds (C34_one_false). The matrix is a value in the model, so its reuse is by construction; the LAPACK backend is the subject of C52."
 ],
 "C35": [
  "proved",
  "exact ordered field with square roots (e.g. the reals); LAPACK backend not modelled"
 ],
 "C36": [
  "partial",
  "False as stated: a matrix whose first diagonal entry is not positive is accepted unmodified (C36_false). C36_iff gives the exact set of rejected matrices."
 ],
 "C37": [
  "proved",
  "factorisation and right-hand sides of equal size; the factor is a value in the model, so it is unmodified by construction"
 ],
 "C38": [
  "proved",
  ""
 ],
 "C39": [
  "proved",
  "aliasing: the in-place form is the same kernel with rhs = result"
 ],
 "C40": [
  "proved",
  "accessors are in range for every square matrix; construction has no outcome other than success and runtime_error"
 ],
 "C41": [
  "partial",
  "False as stated: a singular matrix whose only vanishing pivot is the last one is accepted and solve then divides by zero (C41_false, C41_ones_false). C41_iff is the exact condition; C41_full_partial for matrices without zero entries."
 ],
 "C42": [
  "proved",
  "rhs has the size of the matrix; rhs is a const reference and the function works on its own vectors, so it is a value in the model"
 ],
 "C43": [
  "proved",
  ""
 ],
 "C48": [
  "proved",
  "any two of the three classes"
 ],
 "C49": [
  "proved",
  "also outside the safe domain of +=, for every addition that returns"
 ],
 "C50": [
  "proved",
  "Vectors and dense matrices (sparse operators: C27, C32; solvers: C34, C37, C39, C42)."
 ],
 "C44": [
  "partial",
  "False for an empty range: vecs[0] is read, undefined behaviour (C44_empty_false). Everything else holds: C44_cgs_partial, C44_unique; C44_dependent says exactly when it divides by zero."
 ],
 "C45": [
  "proved",
  "exact arithmetic; matrix classes DynMat and SpMat (SpCooMat has no product with a vector). C45_zero_rhs: the condition b != 0 is needed, b = 0 divides by zero."
 ],
 "C46": [
  "proved",
  "also for singular matrices; the only other outcome is a non-finite number"
 ],
 "C51": [
  "proved",
  "exact arithmetic"
 ],
 "C47": [
  "partial",
  "False as stated: from 2^32 elements on the loops with a 32-bit unsigned counter never terminate (C47_up_false, C47_iota_false, C47_neg_false), and the int32_t loops skip indices above 2^31 (C47_down32_false, C47_inner_false). The _partial theorems give the exact behaviour of every kind of loop."
 ],
 "C52": [
  "partial",
  "False of the second call: ?gtsv overwrites the solver's own diagonals (C52_overwritten, C52_second_false), and a singular system is not reported (C52_singular_silent). The first call is correct: C52_first_partial, C52_first_mat_partial. ?gtsv is a transcription of reference LAPACK (partial pivoting), not of code in /repo."
 ],
 "C53": [
  "partial",
  "False: the internal backend fails on systems which need pivoting and on 1x1 systems (C53_tri_false), and accepts matrices with a non-positive first diagonal entry (C53_chol_false). Agreement elsewhere: C53_tri_partial (first call, see C52), C53_chol_new_partial, C53_chol_vec, C53_chol_mat. ?potrf/?potrs enter by contract; C53_contracts shows the contracts satisfiable."
 ],
 "C54": [
  "partial",
  "False from 2^31 elements on (the size is converted to int: C54_large_false, C54_large_differs) and for dot of empty vectors (C54_dot_empty_false). The _partial theorems prove agreement below 2^31. CBLAS routines are transcribed from the reference implementation."
 ],
 "C55": [
  "proved",
  "For arbitrary operations; dot and norm2 are left out because their omp simd reduction leaves the order open (C05, C06). The first term of gemm is beta*c if storage is shared and c*beta otherwise, equal where multiplication commutes (C55_gemm_start). NaN and the sign of zero are outside the model. x = y is excluded for the sparse product (C31_alias_false); tri-diagonal: n >= 2; Cholesky factor: positive first pivot for the description of the factor (C36_false), no condition for the equality of the two storages."
 ],
 "C56": [
  "proved",
  "Rounded arithmetic as in Spec/Float.lean: relative error at most u, unbounded exponent range, no fused multiply-add; `binary p` (round to nearest even, p bits) is shown to be an instance. dot needs n >= 1 (C05). gam(k) <= k u/(1-k u): C56_gam."
 ],
 "C57": [
  "proved",
  "Rounded arithmetic as in Spec/Float.lean: relative error at most u, unbounded exponent range, no fused multiply-add; `binary p` (round to nearest even, p bits) is shown to be an instance. The result of gemv and of the sparse product must not share storage with the matrix or x (C12, C31)."
 ],
 "C58": [
  "proved",
  "Rounded arithmetic as in Spec/Float.lean: relative error at most u, unbounded exponent range, no fused multiply-add; `binary p` (round to nearest even, p bits) is shown to be an instance. C58_residual turns backward errors into bounds of the residual."
 ],
 "C59": [
  "proved",
  "Rounded arithmetic as in Spec/Float.lean: relative error at most u, unbounded exponent range, no fused multiply-add; `binary p` (round to nearest even, p bits) is shown to be an instance. Positive first diagonal entry (C36_false). Eigenvalue conditions are stated as inequalities of quadratic forms."
 ],
 "C60": [
  "proved",
  "Rounded arithmetic as in Spec/Float.lean: relative error at most u, unbounded exponent range, no fused multiply-add; `binary p` (round to nearest even, p bits) is shown to be an instance. n >= 2 (C34)."
 ],
 "C61": [
  "proved",
  "Rounded arithmetic as in Spec/Float.lean: relative error at most u, unbounded exponent range, no fused multiply-add; `binary p` (round to nearest even, p bits) is shown to be an instance. For any storage with the interface contract `Storage` (instances in C40)."
 ],
 "C62": [
  "proved",
  "Rounded arithmetic as in Spec/Float.lean: relative error at most u, unbounded exponent range, no fused multiply-add; `binary p` (round to nearest even, p bits) is shown to be an instance. For `binary p`."
 ],
 "C63": [
  "proved",
  "Exact arithmetic (commutative ring). Temporaries are moved from as values; vectors moved from have arbitrary contents; allocation does not fail. Sums outside the safe domain are the subject of C26/C27."
 ],
 "C64": [
  "proved",
  "As C63."
 ],
 "C65": [
  "proved",
  "IEEE 754 numbers as in Spec/Ieee.lean: round to nearest even, infinities, one NaN, signed zeros, subnormals, overflow; no fused multiply-add, no extended precision. The two observations that sparse and dense products differ and that beta = 0 does not discard y are theorems (C65_sparse_dense, C65_beta_zero)."
 ],
 "C66": [
  "proved",
  "IEEE 754 numbers as in Spec/Ieee.lean: round to nearest even, infinities, one NaN, signed zeros, subnormals, overflow; no fused multiply-add, no extended precision. "
 ],
 "C67": [
  "proved",
  "IEEE 754 numbers as in Spec/Ieee.lean: round to nearest even, infinities, one NaN, signed zeros, subnormals, overflow; no fused multiply-add, no extended precision. Incomplete LU for any storage with the contract `Storage`."
 ],
 "C68": [
  "proved",
  "IEEE 754 numbers as in Spec/Ieee.lean: round to nearest even, infinities, one NaN, signed zeros, subnormals, overflow; no fused multiply-add, no extended precision. std::pow(x, 2) is x*x of the same type (exact for double; for float the standard computes it in double)."
 ],
 "C69": [
  "proved",
  "IEEE 754 numbers as in Spec/Ieee.lean: round to nearest even, infinities, one NaN, signed zeros, subnormals, overflow; no fused multiply-add, no extended precision. The result is characterised by the recurrences of Spec/GmresEval.lean (C69_run). That the right-hand side zero gives NaN (C69_zero) is a defect of the code: 1/beta with beta = 0."
 ],
 "C70": [
  "proved",
  "IEEE 754 numbers as in Spec/Ieee.lean. C70_singular, C70_overflow, C70_norm_overflow and C70_norm_underflow describe weaknesses of the code: diag(2^600, 2^600) is inverted to zero in double. The literal 1.0 makes the reciprocal a double; for float the statements hold for a reciprocal rounded to float."
 ],
 "C71": [
  "proved",
  "IEEE 754 numbers as in Spec/Ieee.lean. C71_tdma_false and C71_mod_false are counterexamples (valid in float and double) to the same statement without the condition on the pivots. std::pow(x, 2) is x*x of the same type."
 ],
 "C72": [
  "proved",
  "Domain: operands hold a value, element indices in range, result vectors of add/sub not too short, inner products not of empty vectors, DynMat(n, m, arr) with n*m elements, and with NDEBUG conforming shapes; outside it C02, C03, C12-C15 tell what happens. Internal backend, exact arithmetic. The frame theorems need none of this."
 ],
 "C73": [
  "proved",
  "Exact arithmetic (a division by zero is the outcome nonFinite). Incomplete LU and GMRES of a matrix that is not square: C76."
 ],
 "C74": [
  "proved",
  "size_t is taken to have 64 bits and a vector fewer than 2^63 elements. The kernels use the same address expressions on positions inside the shape; the accessors are restated with wrapping operations, the kernels are not. Failure of an allocation is not modelled. The size computation needs 8n+17 < 2^64, which elements of at least 8 bytes guarantee; an example shows what happens beyond."
 ],
 "C75": [
  "partial",
  "False for the CSR product when x and y are the same vector (C75_csr_race, C75_csr_false); proved for all other loops (C75_neg, C75_scal, C75_add, C75_sub, C75_axpy, C75_gemv, C75_gemv_inplace, C75_csr). Accesses are atomic; vectors are the same or disjoint, never overlapping in part. The reductions are the subject of C05 and C06. The kernels under omp target, which add and sub call from 16 elements on if LALIB_USE_ACCELERATOR is defined, are covered as loops on the memory of the host; they have no map clauses, and how a device with its own memory would reach the vectors is not modelled."
 ],
 "C76": [
  "proved",
  "Exact arithmetic, and IEEE arithmetic for GMRES where stated (a tall CSR matrix in IEEE arithmetic is not covered: the division by zero then gives infinities or NaN). For an empty right-hand side the model reports nonFinite for the empty basis vector where the program goes on to the assertion or the read past the end."
 ],
 "C77": [
  "proved",
  "Internal backend. The CSR product with x and y the same vector is left out (C75). No assumption on the number of elements of a DynMat in the mul, add and sub forms; the operators are stated for matrices with rows*columns elements. The overload mul(SizedMat, SizedMat, DynMat&) compiles only with NDEBUG and is then the model's gemmSDD."
 ],
 "C78": [
  "proved",
  "Model/Views.lean adds to the stores of C64 and C72 a table of arrays: which array each object owns, and references as a position in an array. Whether std::vector allocates in a copy assignment or insertion is a free choice of the program (its capacity is not modelled); an array that is given up gets a new generation, so that a reference to it is recognised. For sparse matrices the references are to stored values. Vectors and matrices of static size have their elements inside the object and are not part of this model."
 ],
 "C79": [
  "proved",
  "Over the complex numbers of Mathlib, for any root function with r*r = z and re r >= 0 (the principal branch is one; on the negative real axis the library chooses by the sign of a zero, so both roots are admitted). dot and everything that needs Zero<T>, One<T> do not compile for complex elements."
 ],
 "C80": [
  "proved",
  "Cx (Fl R): pairs of rounded numbers, the product by the formula with four products. Overflow, underflow and the recomputation of NaN products are outside (Fl has no infinities). The root itself is not analysed. The operators A*x, A*B do not compile for complex elements (the literal 1.0), so the functions mul are meant."
 ],
 "C81": [
  "proved",
  "The scalar products are summed in the order of the index. No bound for the loss of orthogonality of a whole family in terms of its condition is given (the inequality for w_k.w_j is recursive)."
 ],
 "C82": [
  "proved",
  "A statement is valid when its operands exist, matrices to be factorised are square (for Ilu they may have more columns than rows; for Cholesky they are symmetric with a positive first entry, see C36), a tri-diagonal matrix has two rows or more (C34), systems solved by TriDiag (no pivoting), Ilu and Gmres are regular and the right-hand side of Gmres is not zero (C45). With SpMat or triangular matrices as the type parameter the solvers are covered by C35-C47 only, one call at a time."
 ],
 "C83": [
  "proved",
  "The contract of std::vector (what asks for memory, no effect of a refused reserve or insertion at the end, empty after a move) is assumed. A refused request is modelled where the library may ask for memory, also where an implementation would not ask. Sharpness (d) is per call. The vector and matrix operations without exceptions of their own (all noexcept) are not among the calls: there every refused request ends the program."
 ],
 "C84": [
  "proved",
  "IEEE 754 numbers as in Spec/Ieee.lean. (a) uses that rounding is monotone and that differences do not underflow, so it needs no margin, unlike C60."
 ],
 "C85": [
  "proved",
  "IEEE 754 numbers as in Spec/Ieee.lean, with gradual underflow. The condition is in the scale of the diagonal (van der Sluis), so badly scaled matrices are covered. C85_refused shows that some condition is needed."
 ],
 "C86": [
  "proved",
  "The gap in (b) is |a_ii| w_i less (1 + gam(6(n+1))) times the rest of the row and all underflows (ieeeGap). C86_strict_false: equality in one row is too little."
 ],
 "C87": [
  "proved",
  "Noisy is a structure with the error bounds as fields; contracted R fuse and Rounding.noisy are the two instances. C87_singular_false and C87_cross_equal_false: what is lost."
 ],
 "C88": [
  "proved",
  "Scaling is a structure; Fl.scaling R and Fp.scaling F are the instances. SameOut includes the calls that fail. C88_no_powers: doubling is no symmetry of IEEE arithmetic. C88_gmres is for rounded arithmetic without range limits; matrices of one class with the same stored positions."
 ],
 "C89": [
  "proved",
  "OrdArith is a structure; Fl.ordArith R (R monotone) and Fp.ordArith F are the instances. The hypothesis that the second result be finite cannot be dropped for IEEE numbers, where it may overflow."
 ],
 "C90": [
  "proved",
  "SInt b is a signed type no narrower than int (no integral promotions); over stands for an overflow that has happened. dot, norm2, A*x, A*B, -A and the sparse and structured matrices do not compile for integers (DESIGN.md, Instantiations)."
 ],
 "C91": [
  "proved",
  "K is a hypothesis about the given matrix (C91_inverse gives two ways to establish it). Norms are stated by their defining inequalities."
 ],
 "C92": [
  "proved",
  "The loop is a user program, the functions it calls are those of the library. r, d and x are distinct objects, different from A and b."
 ],
 "C93": [
  "proved",
  "C93_cholesky asks for a positive first entry: the code accepts a matrix with a bad first pivot (C36_false). C93_ilu asks that zeros of the matrix are zeros in the family; C93_ilu_jump shows that this is needed. Iterations with a stopping test (GMRES) are not covered. Dual numbers and intervals are element types of the user; the library is a template and takes any type with these operations."
 ],
 "C94": [
  "proved",
  "C93 is about limits and one-sided descriptions and asks for a successful run; C94 is two-sided, covers failures, the sparse sums and GMRES. The correspondence of the element types is a hypothesis (structure Twin); instances: field homomorphisms (Spec/Twin.lean), executable IEEE numbers (C95)."
 ],
 "C95": [
  "proved",
  "The real-number definition of the IEEE operations is that of Spec/Ieee.lean (one NaN, no flags, no fma). Through this the concrete runs of Suite modules and examples are statements about double."
 ],
 "C96": [
  "partial",
  "The quotient is returned for divisors with an exact reciprocal (C96_exact_partial, C96_power_of_two_partial) and approximated where the reciprocal is normal (C96_error_partial); for other divisors it is not, by C96_overflow_false and C96_quotient_false. Nothing is missing from the proofs; the code divides by multiplying with a rounded reciprocal. The operator does not compile for float (DESIGN.md, Instantiations); the theorems are for all formats."
 ],
 "C97": [
  "proved",
  "The vector returned is that of C51; the theorems are about exact arithmetic."
 ],
 "C98": [
  "proved",
  "X& must be written by the user: the parameter M&& of the constructors is not a forwarding reference, so deduction gives X. C98_gmres_false and C98_iff say that the solver over a reference is wrong."
 ],
 "C99": [
  "proved",
  "C99_operators_false, C99_mat_operators_false and C99_directives_false state what is wrong; C99_iff and C99_sub_iff give the exact domain of add and sub. A mapped section starts at the first element of its object. __axpy_core_accelerator is called from nowhere."
 ],
 "C100": [
  "proved",
  "C100_packed_false is a concrete wrong solution. The exact domain for the lower-triangular and Hermitian classes is given for order 2; for higher orders only that diagonal matrices are right."
 ],
 "C101": [
  "proved",
  "std::to_string is modelled by its standard meaning. The texts of the other exceptions are fixed literals and are not modelled."
 ],
 "C102": [
  "proved",
  "Loads and stores are atomic steps in the model; in C++ this is justified by the absence of races, which is proved. Loops under omp simd run in index order; that other orders make no difference is C75. Calls that return new objects, the factorisations and GMRES are not among the calls; sizes do not change while the threads run."
 ],
 "C103": [
  "proved",
  "Exact arithmetic, and rounded arithmetic without overflow and underflow (C103_rounded). C92 is the iteration under a condition on the size of the dropped entries instead. The program is the user's; it is composed of calls of the library."
 ],
 "C104": [
  "proved",
  "Exact arithmetic. The number of steps is that of the Krylov vectors of which the result is a combination, as in C51."
 ],
 "C105": [
  "proved",
  "Exact arithmetic. Order 1 is excluded for TriDiag because the internal kernel fails there (C34). How far the results can differ with rounding follows from C91."
 ],
 "C106": [
  "proved",
  "SizedMat::Iter is declared as the iterator of an array of another size; it is taken to be a pointer, as in libstdc++. Names of objects are sizes and numbers, so only programs that compile can be written down."
 ],
 "C107": [
  "proved",
  "In (1) the result is an object of its own in both calls; C55_gemm_start says when sharing makes no difference."
 ],
 "C108": [
  "proved",
  "For the plain Cholesky class the statement includes matrices whose first pivot is not positive, which are returned as they are (C36_false)."
 ],
 "C109": [
  "proved",
  "A matrix with a vanishing leading minor is not accepted by the modified Cholesky class (C38_throws), whatever its index."
 ],
 "C110": [
  "proved",
  "Superposition fails for GMRES in general (C110_gmres_false); there the claim is that failure."
 ],
 "C111": [
  "proved",
  "The sums in the premises are exact sums of the computed numbers; C66 and C57 bound what summing them in floating point changes."
 ],
 "C112": [
  "proved",
  ""
 ],
 "C113": [
  "proved",
  ""
 ],
 "C114": [
  "proved",
  ""
 ],
 "C115": [
  "proved",
  ""
 ],
 "C116": [
  "proved",
  ""
 ],
 "C117": [
  "proved",
  ""
 ],
 "C118": [
  "proved",
  ""
 ],
 "C119": [
  "proved",
  ""
 ],
 "C120": [
  "proved",
  ""
 ],
 "C121": [
  "proved",
  ""
 ],
 "C122": [
  "proved",
  ""
 ]
}
