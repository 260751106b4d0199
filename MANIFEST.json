{
 "claims": [
  {
   "property": "C01",
   "status": "proved",
   "theorems": [
    "Lalib.Props.C01_operators",
    "Lalib.Props.C01_quotient",
    "Lalib.Props.C01_neg",
    "Lalib.Props.C01_neg_sized",
    "Lalib.Props.C01_add",
    "Lalib.Props.C01_add_sized",
    "Lalib.Props.C01_sub",
    "Lalib.Props.C01_sub_sized",
    "Lalib.Props.C01_axpy",
    "Lalib.Props.C01_scale"
   ],
   "note": "For every scalar type and operation (so also IEEE types), every aliasing pattern."
  },
  {
   "property": "C02",
   "status": "proved",
   "theorems": [
    "Lalib.Props.C02_same",
    "Lalib.Props.C02_add",
    "Lalib.Props.C02_add_mixed",
    "Lalib.Props.C02_sub",
    "Lalib.Props.C02_sub_mixed",
    "Lalib.Props.C02_op",
    "Lalib.Props.C02_match",
    "Lalib.Props.C02_member_dot",
    "Lalib.Props.C02_noexcept_terminate",
    "Lalib.Props.C02_no_throw"
   ],
   "note": "add, sub and member dot throw with memory unchanged; the noexcept functions terminate."
  },
  {
   "property": "C03",
   "status": "partial",
   "theorems": [
    "Lalib.Props.C03_add_oob",
    "Lalib.Props.C03_sub_oob",
    "Lalib.Props.C03_sized_dot_oob",
    "Lalib.Props.C03_sized_dot_partial",
    "Lalib.Props.C03_add_partial",
    "Lalib.Props.C03_sub_partial",
    "Lalib.Props.C03_mixed"
   ],
   "note": "False of the code: every result vector shorter than the operands is written out of bounds (C03_add_oob, C03_sub_oob), and SizedVec::dot of every shorter DynVec reads out of bounds (C03_sized_dot_oob). Proved for result vectors at least as long as the operands and for DynVec operands of dot with at least N elements."
  },
  {
   "property": "C04",
   "status": "proved",
   "theorems": [
    "Lalib.Props.C04_schedule_independent",
    "Lalib.Props.C04_deterministic",
    "Lalib.Props.C04_progress",
    "Lalib.Props.C04_kernels"
   ],
   "note": "All interleavings of load/load/store micro-steps; sequentially consistent memory."
  },
  {
   "property": "C05",
   "status": "partial",
   "theorems": [
    "Lalib.Props.C05_dot_partial",
    "Lalib.Props.C05_reduction_order",
    "Lalib.Props.C05_symmetric",
    "Lalib.Props.C05_linear",
    "Lalib.Props.C05_empty_ub"
   ],
   "note": "Proved for non-empty vectors in a commutative ring and every reduction tree; for empty vectors the code has undefined behaviour (C05_empty_ub)."
  },
  {
   "property": "C06",
   "status": "proved",
   "theorems": [
    "Lalib.Props.C06_norm2",
    "Lalib.Props.C06_reduction_order",
    "Lalib.Props.C06_homogeneous"
   ],
   "note": "Exact arithmetic in an ordered field with square roots."
  },
  {
   "property": "C07",
   "status": "proved",
   "theorems": [
    "Lalib.Props.C07_cross",
    "Lalib.Props.C07_cross_acc",
    "Lalib.Props.C07_cross2",
    "Lalib.Props.C07_identities",
    "Lalib.Props.C07_assert",
    "Lalib.Props.C07_assert2",
    "Lalib.Props.C07_too_short",
    "Lalib.Props.C07_too_short2",
    "Lalib.Props.C07_longer"
   ],
   "note": ""
  },
  {
   "property": "C08",
   "status": "proved",
   "theorems": [
    "Lalib.Props.C08_forms_agree",
    "Lalib.Props.C08_div",
    "Lalib.Props.C08_div_zero",
    "Lalib.Props.C08_assoc",
    "Lalib.Props.C08_distrib"
   ],
   "note": "Exact arithmetic for the division and module laws."
  },
  {
   "property": "C09",
   "status": "proved",
   "theorems": [
    "Lalib.Props.C09_write_read",
    "Lalib.Props.C09_row_major",
    "Lalib.Props.C09_history"
   ],
   "note": "Also for whole histories of writes (C09_history)."
  },
  {
   "property": "C10",
   "status": "proved",
   "theorems": [
    "Lalib.Props.C10_filled",
    "Lalib.Props.C10_diag",
    "Lalib.Props.C10_identity",
    "Lalib.Props.C10_diag_const",
    "Lalib.Props.C10_uninit",
    "Lalib.Props.C10_sized_mat",
    "Lalib.Props.C10_sized_vec",
    "Lalib.Props.C10_vec_factories"
   ],
   "note": ""
  },
  {
   "property": "C11",
   "status": "partial",
   "theorems": [
    "Lalib.Props.C11_never_rejects",
    "Lalib.Props.C11_short_data_ub",
    "Lalib.Props.C11_readable_partial"
   ],
   "note": "False of the code: the constructor accepts every length (C11_never_rejects); with too little data an in-range read is undefined behaviour (C11_short_data_ub). Proved: with enough data every in-range position reads its row-major element."
  },
  {
   "property": "C12",
   "status": "proved",
   "theorems": [
    "Lalib.Props.C12_mul",
    "Lalib.Props.C12_op",
    "Lalib.Props.C12_mismatch_debug"
   ],
   "note": "Internal backend, exact arithmetic (commutative ring). No 32-bit counter wrap, see C47."
  },
  {
   "property": "C13",
   "status": "proved",
   "theorems": [
    "Lalib.Props.C13_mul",
    "Lalib.Props.C13_op",
    "Lalib.Props.C13_mismatch_debug"
   ],
   "note": "Internal backend, exact arithmetic (commutative ring); every overload that compiles."
  },
  {
   "property": "C14",
   "status": "proved",
   "theorems": [
    "Lalib.Props.C14_add_sub",
    "Lalib.Props.C14_scale",
    "Lalib.Props.C14_ops",
    "Lalib.Props.C14_mismatch_debug"
   ],
   "note": ""
  },
  {
   "property": "C15",
   "status": "proved",
   "theorems": [
    "Lalib.Props.C15_assoc_vec",
    "Lalib.Props.C15_assoc",
    "Lalib.Props.C15_identity",
    "Lalib.Props.C15_distrib"
   ],
   "note": "Exact arithmetic in a commutative ring."
  },
  {
   "property": "C16",
   "status": "proved",
   "theorems": [
    "Lalib.Props.C16_invert",
    "Lalib.Props.C16_forms_agree",
    "Lalib.Props.C16_inverse",
    "Lalib.Props.C16_singular"
   ],
   "note": "Over any field; a non-finite intermediate is an outcome of its own."
  },
  {
   "property": "C17",
   "status": "partial",
   "theorems": [
    "Lalib.Props.C17_gemv_partial",
    "Lalib.Props.C17_gemv_alias_drops_beta",
    "Lalib.Props.C17_gemv_no_columns",
    "Lalib.Props.C17_gemm_partial",
    "Lalib.Props.C17_gemm_wide",
    "Lalib.Props.C17_gemm_tall"
   ],
   "note": "False of the code: BLAS gemv drops beta*y when x and y are the same vector, does not scale y when A has no columns; BLAS gemm gets a wrong leading dimension for non-square results (rejected or out of bounds). Proved equal for gemv with x != y and at least one column, and gemm with square results. CBLAS itself enters as its documented contract."
  },
  {
   "property": "C18",
   "status": "partial",
   "theorems": [
    "Lalib.Props.C18_read_in_band_partial",
    "Lalib.Props.C18_read_off_band_false",
    "Lalib.Props.C18_read_off_band_witness",
    "Lalib.Props.C18_read_mut_off_band",
    "Lalib.Props.C18_write_in_band",
    "Lalib.Props.C18_write_off_band",
    "Lalib.Props.C18_shape"
   ],
   "note": "Reads inside the band and all writes are proved. The claim that reads outside the band return 0 is false: the const overload returns a reference to a destroyed temporary at every off-band position (C18_read_off_band_false)."
  },
  {
   "property": "C19",
   "status": "proved",
   "theorems": [
    "Lalib.Props.C19_construct",
    "Lalib.Props.C19_size_unique",
    "Lalib.Props.C19_access",
    "Lalib.Props.C19_below",
    "Lalib.Props.C19_construct_len",
    "Lalib.Props.C19_sqrt_double",
    "Lalib.Props.C19_construct_double"
   ],
   "note": "Sizes with 17 + 8*n below 2^64. The constructor theorem is for any square root that is exact on perfect squares below 2^64; C19_sqrt_double proves that of correctly rounded double arithmetic."
  },
  {
   "property": "C20",
   "status": "partial",
   "theorems": [
    "Lalib.Props.C20_step",
    "Lalib.Props.C20_history",
    "Lalib.Props.C20_start",
    "Lalib.Props.C20_start_empty",
    "Lalib.Props.C20_extend_keeps",
    "Lalib.Props.C20_extend_wrong_length",
    "Lalib.Props.C20_extend_same",
    "Lalib.Props.C20_extend_placement_partial",
    "Lalib.Props.C20_extend_zero_placement_partial",
    "Lalib.Props.C20_extend_zero_false",
    "Lalib.Props.C20_get_col"
   ],
   "note": "History theorem proved against an abstract matrix that includes the hidden element (n,n-1) kept by extend_with on an empty matrix. Because of that hidden element the zero extension does not always show zeros (C20_extend_zero_false); placement theorems carry the suffix _partial."
  },
  {
   "property": "C21",
   "status": "partial",
   "theorems": [
    "Lalib.Props.C21_construct_partial",
    "Lalib.Props.C21_reject_false",
    "Lalib.Props.C21_reject_witness",
    "Lalib.Props.C21_size_unique",
    "Lalib.Props.C21_access",
    "Lalib.Props.C21_below",
    "Lalib.Props.C21_step",
    "Lalib.Props.C21_history",
    "Lalib.Props.C21_extend_wrong_length",
    "Lalib.Props.C21_extend_same",
    "Lalib.Props.C21_start",
    "Lalib.Props.C21_start_empty",
    "Lalib.Props.C21_extend"
   ],
   "note": "Acceptance, access and histories proved, with the square root as in C19. A wrong size is not reported: the constructor is noexcept, so the program terminates (C21_reject_false)."
  },
  {
   "property": "C22",
   "status": "proved",
   "theorems": [
    "Lalib.Props.C22_solves",
    "Lalib.Props.C22_wrong_size",
    "Lalib.Props.C22_same"
   ],
   "note": "Any field; the range does not overlap the storage of the matrix."
  },
  {
   "property": "C23",
   "status": "partial",
   "theorems": [
    "Lalib.Props.C23_hermite_pairs",
    "Lalib.Props.C23_lower_access_partial",
    "Lalib.Props.C23_lower_mirror",
    "Lalib.Props.C23_lower_write_mirror",
    "Lalib.Props.C23_lower_zero_false",
    "Lalib.Props.C23_conjugate_false",
    "Lalib.Props.C23_into_lower",
    "Lalib.Props.C23_construct"
   ],
   "note": "Hermitian pairs, injectivity and into_lower_mat proved. Lower-triangular matrices do not read 0 above the diagonal but the mirrored element (C23_lower_mirror, C23_lower_zero_false); Hermitian access does not conjugate (C23_conjugate_false)."
  },
  {
   "property": "C24",
   "status": "proved",
   "theorems": [
    "Lalib.Props.C24_throws",
    "Lalib.Props.C24_triplets",
    "Lalib.Props.C24_read",
    "Lalib.Props.C24_order_independent",
    "Lalib.Props.C24_sort_exists"
   ],
   "note": "std::sort is any function meeting LawfulSort (returns a permutation that is ordered when the comparison is a strict weak order); C24_sort_exists gives an instance."
  },
  {
   "property": "C25",
   "status": "proved",
   "theorems": [
    "Lalib.Props.C25_update"
   ],
   "note": "positions distinct"
  },
  {
   "property": "C26",
   "status": "partial",
   "theorems": [
    "Lalib.Props.C26_add_partial",
    "Lalib.Props.C26_rows_subset",
    "Lalib.Props.C26_add_iff",
    "Lalib.Props.C26_positions",
    "Lalib.Props.C26_self",
    "Lalib.Props.C26_empty_rhs_false",
    "Lalib.Props.C26_empty_lhs_false",
    "Lalib.Props.C26_wrong_row_false",
    "Lalib.Props.C26_past_end_false"
   ],
   "note": "False in general: for += the exact domain on which the result is the sum is AddSafe (C26_add_iff). Outside it an element of B is lost, put in the wrong row's merge or memory past the end is read (C26_wrong_row_false, C26_past_end_false, C26_empty_lhs_false, C26_empty_rhs_false). A += A always doubles (C26_self). B unchanged: operands are values in the model."
  },
  {
   "property": "C27",
   "status": "partial",
   "theorems": [
    "Lalib.Props.C27_add_partial",
    "Lalib.Props.C27_sub_partial",
    "Lalib.Props.C27_add_self",
    "Lalib.Props.C27_wrong_row_false",
    "Lalib.Props.C27_empty_false"
   ],
   "note": "Same domain as C26; in addition the operators are noexcept."
  },
  {
   "property": "C28",
   "status": "proved",
   "theorems": [
    "Lalib.Props.C28_convert",
    "Lalib.Props.C28_distinct"
   ],
   "note": "every sorted COO matrix; one with no stored element converts to zero rows"
  },
  {
   "property": "C29",
   "status": "proved",
   "theorems": [
    "Lalib.Props.C29_read",
    "Lalib.Props.C29_beyond",
    "Lalib.Props.C29_update",
    "Lalib.Props.C29_new"
   ],
   "note": "reads and updates for row indices below the number of rows; beyond that operator() reads past the row pointer array"
  },
  {
   "property": "C30",
   "status": "partial",
   "theorems": [
    "Lalib.Props.C30_coo",
    "Lalib.Props.C30_csr",
    "Lalib.Props.C30_unit_mul_partial",
    "Lalib.Props.C30_unit_zero_false"
   ],
   "note": "proved for all n except that unit(0)*x is undefined (C30_unit_zero_false)"
  },
  {
   "property": "C31",
   "status": "partial",
   "theorems": [
    "Lalib.Props.C31_mul_partial",
    "Lalib.Props.C31_op_partial",
    "Lalib.Props.C31_dense",
    "Lalib.Props.C31_alias_false",
    "Lalib.Props.C31_empty_false"
   ],
   "note": "Proved for separate x and y and a matrix with a stored element. False for x = y (C31_alias_false); undefined with no stored element (C31_empty_false)."
  },
  {
   "property": "C32",
   "status": "proved",
   "theorems": [
    "Lalib.Props.C32_coo",
    "Lalib.Props.C32_csr"
   ],
   "note": "positions are literally the same arrays"
  },
  {
   "property": "C33",
   "status": "partial",
   "theorems": [
    "Lalib.Props.C33_coo_partial",
    "Lalib.Props.C33_csr_partial",
    "Lalib.Props.C33_empty_false"
   ],
   "note": "Proved with at least one stored element; undefined without (C33_empty_false)."
  },
  {
   "property": "C34",
   "status": "partial",
   "theorems": [
    "Lalib.Props.C34_vec_partial",
    "Lalib.Props.C34_mat_partial",
    "Lalib.Props.C34_singular",
    "Lalib.Props.C34_dominant",
    "Lalib.Props.C34_one_false"
   ],
   "note": "Proved for n >= 2 on the exact domain (all leading principal minors non-zero; otherwise a division by zero, C34_singular). False for n = 1: reads du[0] out of bounds (C34_one_false). The matrix is a value in the model, so its reuse is by construction; the LAPACK backend is the subject of C52."
  },
  {
   "property": "C35",
   "status": "proved",
   "theorems": [
    "Lalib.Props.C35_factor",
    "Lalib.Props.C35_same",
    "Lalib.Props.C35_upper"
   ],
   "note": "exact ordered field with square roots (e.g. the reals); LAPACK backend not modelled"
  },
  {
   "property": "C36",
   "status": "partial",
   "theorems": [
    "Lalib.Props.C36_accepts",
    "Lalib.Props.C36_rejects_partial",
    "Lalib.Props.C36_false",
    "Lalib.Props.C36_iff"
   ],
   "note": "False as stated: a matrix whose first diagonal entry is not positive is accepted unmodified (C36_false). C36_iff gives the exact set of rejected matrices."
  },
  {
   "property": "C37",
   "status": "proved",
   "theorems": [
    "Lalib.Props.C37_vec",
    "Lalib.Props.C37_mat"
   ],
   "note": "factorisation and right-hand sides of equal size; the factor is a value in the model, so it is unmodified by construction"
  },
  {
   "property": "C38",
   "status": "proved",
   "theorems": [
    "Lalib.Props.C38_throws",
    "Lalib.Props.C38_factor",
    "Lalib.Props.C38_upper",
    "Lalib.Props.C38_posDef"
   ],
   "note": ""
  },
  {
   "property": "C39",
   "status": "proved",
   "theorems": [
    "Lalib.Props.C39_vec",
    "Lalib.Props.C39_mat"
   ],
   "note": "aliasing: the in-place form is the same kernel with rhs = result"
  },
  {
   "property": "C40",
   "status": "proved",
   "theorems": [
    "Lalib.Props.C40_factor",
    "Lalib.Props.C40_unique"
   ],
   "note": "accessors are in range for every square matrix; construction has no outcome other than success and runtime_error"
  },
  {
   "property": "C41",
   "status": "partial",
   "theorems": [
    "Lalib.Props.C41_iff",
    "Lalib.Props.C41_full_partial",
    "Lalib.Props.C41_false",
    "Lalib.Props.C41_ones_false"
   ],
   "note": "False as stated: a singular matrix whose only vanishing pivot is the last one is accepted and solve then divides by zero (C41_false, C41_ones_false). C41_iff is the exact condition; C41_full_partial for matrices without zero entries."
  },
  {
   "property": "C42",
   "status": "proved",
   "theorems": [
    "Lalib.Props.C42_solve",
    "Lalib.Props.C42_zero"
   ],
   "note": "rhs has the size of the matrix; rhs is a const reference and the function works on its own vectors, so it is a value in the model"
  },
  {
   "property": "C43",
   "status": "proved",
   "theorems": [
    "Lalib.Props.C43_exact",
    "Lalib.Props.C43_noFill",
    "Lalib.Props.C43_full",
    "Lalib.Props.C43_triDiag"
   ],
   "note": ""
  },
  {
   "property": "C44",
   "status": "partial",
   "theorems": [
    "Lalib.Props.C44_cgs_partial",
    "Lalib.Props.C44_unique",
    "Lalib.Props.C44_dependent",
    "Lalib.Props.C44_sizes",
    "Lalib.Props.C44_empty_false"
   ],
   "note": "False for an empty range: vecs[0] is read, undefined behaviour (C44_empty_false). Everything else holds: C44_cgs_partial, C44_unique; C44_dependent says exactly when it divides by zero."
  },
  {
   "property": "C45",
   "status": "proved",
   "theorems": [
    "Lalib.Props.C45_solve",
    "Lalib.Props.C45_exact",
    "Lalib.Props.C45_zero_rhs"
   ],
   "note": "exact arithmetic; matrix classes DynMat and SpMat (SpCooMat has no product with a vector). C45_zero_rhs: the condition b != 0 is needed, b = 0 divides by zero."
  },
  {
   "property": "C46",
   "status": "proved",
   "theorems": [
    "Lalib.Props.C46_safe"
   ],
   "note": "also for singular matrices; the only other outcome is a non-finite number"
  },
  {
   "property": "C47",
   "status": "partial",
   "theorems": [
    "Lalib.Props.C47_up_partial",
    "Lalib.Props.C47_up_false",
    "Lalib.Props.C47_up_iff",
    "Lalib.Props.C47_iota_partial",
    "Lalib.Props.C47_iota_false",
    "Lalib.Props.C47_le_partial",
    "Lalib.Props.C47_le_false",
    "Lalib.Props.C47_up64",
    "Lalib.Props.C47_post64",
    "Lalib.Props.C47_down64",
    "Lalib.Props.C47_down32_partial",
    "Lalib.Props.C47_down32_zero",
    "Lalib.Props.C47_down32_iff",
    "Lalib.Props.C47_down32_false",
    "Lalib.Props.C47_inner_partial",
    "Lalib.Props.C47_inner_false",
    "Lalib.Props.C47_model_partial",
    "Lalib.Props.C47_neg_false"
   ],
   "note": "False as stated: from 2^32 elements on the loops with a 32-bit unsigned counter never terminate (C47_up_false, C47_iota_false, C47_neg_false), and the int32_t loops skip indices above 2^31 (C47_down32_false, C47_inner_false). The _partial theorems give the exact behaviour of every kind of loop."
  },
  {
   "property": "C48",
   "status": "proved",
   "theorems": [
    "Lalib.Props.C48_same"
   ],
   "note": "any two of the three classes"
  },
  {
   "property": "C49",
   "status": "proved",
   "theorems": [
    "Lalib.Props.C49_wf",
    "Lalib.Props.C49_distinct"
   ],
   "note": "also outside the safe domain of +=, for every addition that returns"
  },
  {
   "property": "C50",
   "status": "proved",
   "theorems": [
    "Lalib.Props.C50_vec_add_sub",
    "Lalib.Props.C50_vec_neg_scale",
    "Lalib.Props.C50_vec_div",
    "Lalib.Props.C50_mat",
    "Lalib.Props.C50_inverted"
   ],
   "note": "Vectors and dense matrices (sparse operators: C27, C32; solvers: C34, C37, C39, C42)."
  },
  {
   "property": "C51",
   "status": "proved",
   "theorems": [
    "Lalib.Props.C51_gmres",
    "Lalib.Props.C51_unique",
    "Lalib.Props.C51_krylov",
    "Lalib.Props.C51_same"
   ],
   "note": "exact arithmetic"
  },
  {
   "property": "C52",
   "status": "partial",
   "theorems": [
    "Lalib.Props.C52_first_partial",
    "Lalib.Props.C52_first_mat_partial",
    "Lalib.Props.C52_overwritten",
    "Lalib.Props.C52_second_false",
    "Lalib.Props.C52_singular_silent"
   ],
   "note": "False of the second call: ?gtsv overwrites the solver's own diagonals (C52_overwritten, C52_second_false), and a singular system is not reported (C52_singular_silent). The first call is correct: C52_first_partial, C52_first_mat_partial. ?gtsv is a transcription of reference LAPACK (partial pivoting), not of code in /repo."
  },
  {
   "property": "C53",
   "status": "partial",
   "theorems": [
    "Lalib.Props.C53_tri_partial",
    "Lalib.Props.C53_tri_false",
    "Lalib.Props.C53_chol_new_partial",
    "Lalib.Props.C53_chol_rejects",
    "Lalib.Props.C53_chol_false",
    "Lalib.Props.C53_chol_vec",
    "Lalib.Props.C53_chol_mat",
    "Lalib.Props.C53_contracts"
   ],
   "note": "False: the internal backend fails on systems which need pivoting and on 1x1 systems (C53_tri_false), and accepts matrices with a non-positive first diagonal entry (C53_chol_false). Agreement elsewhere: C53_tri_partial (first call, see C52), C53_chol_new_partial, C53_chol_vec, C53_chol_mat. ?potrf/?potrs enter by contract; C53_contracts shows the contracts satisfiable."
  },
  {
   "property": "C54",
   "status": "partial",
   "theorems": [
    "Lalib.Props.C54_axpy_partial",
    "Lalib.Props.C54_scale_partial",
    "Lalib.Props.C54_dot_partial",
    "Lalib.Props.C54_dot_empty_false",
    "Lalib.Props.C54_norm2_partial",
    "Lalib.Props.C54_large_false",
    "Lalib.Props.C54_large_differs"
   ],
   "note": "False from 2^31 elements on (the size is converted to int: C54_large_false, C54_large_differs) and for dot of empty vectors (C54_dot_empty_false). The _partial theorems prove agreement below 2^31. CBLAS routines are transcribed from the reference implementation."
  },
  {
   "property": "C55",
   "status": "proved",
   "theorems": [
    "Lalib.Props.C55_gemv",
    "Lalib.Props.C55_gemm",
    "Lalib.Props.C55_gemm_start",
    "Lalib.Props.C55_spmv",
    "Lalib.Props.C55_back_sub",
    "Lalib.Props.C55_cholesky",
    "Lalib.Props.C55_cholesky_same",
    "Lalib.Props.C55_mod_cholesky",
    "Lalib.Props.C55_chol_solve_vec",
    "Lalib.Props.C55_chol_solve_mat",
    "Lalib.Props.C55_chol_solve_same",
    "Lalib.Props.C55_chol_solve_unique",
    "Lalib.Props.C55_ilu",
    "Lalib.Props.C55_ilu_solve",
    "Lalib.Props.C55_ilu_solve_same",
    "Lalib.Props.C55_tdma_vec",
    "Lalib.Props.C55_tdma_mat",
    "Lalib.Props.C55_tdma_unique"
   ],
   "note": "For arbitrary operations; dot and norm2 are left out because their omp simd reduction leaves the order open (C05, C06). The first term of gemm is beta*c if storage is shared and c*beta otherwise, equal where multiplication commutes (C55_gemm_start). NaN and the sign of zero are outside the model. x = y is excluded for the sparse product (C31_alias_false); tri-diagonal: n >= 2; Cholesky factor: positive first pivot for the description of the factor (C36_false), no condition for the equality of the two storages."
  },
  {
   "property": "C56",
   "status": "proved",
   "theorems": [
    "Lalib.Props.C56_gam",
    "Lalib.Props.C56_dot",
    "Lalib.Props.C56_dot_any_order",
    "Lalib.Props.C56_norm2",
    "Lalib.Props.C56_norm2_any_order"
   ],
   "note": "Rounded arithmetic as in Spec/Float.lean: relative error at most u, unbounded exponent range, no fused multiply-add; `binary p` (round to nearest even, p bits) is shown to be an instance. dot needs n >= 1 (C05). gam(k) <= k u/(1-k u): C56_gam."
  },
  {
   "property": "C57",
   "status": "proved",
   "theorems": [
    "Lalib.Props.C57_gemv",
    "Lalib.Props.C57_mat_vec",
    "Lalib.Props.C57_gemm",
    "Lalib.Props.C57_mat_mul",
    "Lalib.Props.C57_spmv"
   ],
   "note": "Rounded arithmetic as in Spec/Float.lean: relative error at most u, unbounded exponent range, no fused multiply-add; `binary p` (round to nearest even, p bits) is shown to be an instance. The result of gemv and of the sparse product must not share storage with the matrix or x (C12, C31)."
  },
  {
   "property": "C58",
   "status": "proved",
   "theorems": [
    "Lalib.Props.C58_residual",
    "Lalib.Props.C58_back_sub"
   ],
   "note": "Rounded arithmetic as in Spec/Float.lean: relative error at most u, unbounded exponent range, no fused multiply-add; `binary p` (round to nearest even, p bits) is shown to be an instance. C58_residual turns backward errors into bounds of the residual."
  },
  {
   "property": "C59",
   "status": "proved",
   "theorems": [
    "Lalib.Props.C59_factor",
    "Lalib.Props.C59_accepts",
    "Lalib.Props.C59_rejects",
    "Lalib.Props.C59_solve_vec",
    "Lalib.Props.C59_solve_mat",
    "Lalib.Props.C59_mod"
   ],
   "note": "Rounded arithmetic as in Spec/Float.lean: relative error at most u, unbounded exponent range, no fused multiply-add; `binary p` (round to nearest even, p bits) is shown to be an instance. Positive first diagonal entry (C36_false). Eigenvalue conditions are stated as inequalities of quadratic forms."
  },
  {
   "property": "C60",
   "status": "proved",
   "theorems": [
    "Lalib.Props.C60_tdma",
    "Lalib.Props.C60_dominant",
    "Lalib.Props.C60_dominant_mat"
   ],
   "note": "Rounded arithmetic as in Spec/Float.lean: relative error at most u, unbounded exponent range, no fused multiply-add; `binary p` (round to nearest even, p bits) is shown to be an instance. n >= 2 (C34)."
  },
  {
   "property": "C61",
   "status": "proved",
   "theorems": [
    "Lalib.Props.C61_factor",
    "Lalib.Props.C61_solve"
   ],
   "note": "Rounded arithmetic as in Spec/Float.lean: relative error at most u, unbounded exponent range, no fused multiply-add; `binary p` (round to nearest even, p bits) is shown to be an instance. For any storage with the interface contract `Storage` (instances in C40)."
  },
  {
   "property": "C62",
   "status": "proved",
   "theorems": [
    "Lalib.Props.C62_dot",
    "Lalib.Props.C62_norm2",
    "Lalib.Props.C62_gemv",
    "Lalib.Props.C62_gemm",
    "Lalib.Props.C62_spmv"
   ],
   "note": "Rounded arithmetic as in Spec/Float.lean: relative error at most u, unbounded exponent range, no fused multiply-add; `binary p` (round to nearest even, p bits) is shown to be an instance. For `binary p`."
  },
  {
   "property": "C63",
   "status": "proved",
   "theorems": [
    "Lalib.Props.C63_step",
    "Lalib.Props.C63_program",
    "Lalib.Props.C63_frame",
    "Lalib.Props.C63_failure",
    "Lalib.Props.C63_copy",
    "Lalib.Props.C63_unique",
    "Lalib.Props.C63_addable_rows",
    "Lalib.Props.C63_program_frame",
    "Lalib.Props.C63_observe"
   ],
   "note": "Exact arithmetic (commutative ring). Temporaries are moved from as values; vectors moved from have arbitrary contents; allocation does not fail. Sums outside the safe domain are the subject of C26/C27."
  },
  {
   "property": "C64",
   "status": "proved",
   "theorems": [
    "Lalib.Props.C64_step",
    "Lalib.Props.C64_program",
    "Lalib.Props.C64_frame",
    "Lalib.Props.C64_observe"
   ],
   "note": "As C63."
  },
  {
   "property": "C65",
   "status": "proved",
   "theorems": [
    "Lalib.Props.C65_dot",
    "Lalib.Props.C65_dot_any_order",
    "Lalib.Props.C65_norm2",
    "Lalib.Props.C65_gemv",
    "Lalib.Props.C65_gemm",
    "Lalib.Props.C65_spmv",
    "Lalib.Props.C65_axpy",
    "Lalib.Props.C65_sparse_dense",
    "Lalib.Props.C65_beta_zero"
   ],
   "note": "IEEE 754 numbers as in Spec/Ieee.lean: round to nearest even, infinities, one NaN, signed zeros, subnormals, overflow; no fused multiply-add, no extended precision. The two observations that sparse and dense products differ and that beta = 0 does not discard y are theorems (C65_sparse_dense, C65_beta_zero)."
  },
  {
   "property": "C66",
   "status": "proved",
   "theorems": [
    "Lalib.Props.C66_dot",
    "Lalib.Props.C66_dot_any_order",
    "Lalib.Props.C66_norm2",
    "Lalib.Props.C66_gemv",
    "Lalib.Props.C66_gemm",
    "Lalib.Props.C66_spmv"
   ],
   "note": "IEEE 754 numbers as in Spec/Ieee.lean: round to nearest even, infinities, one NaN, signed zeros, subnormals, overflow; no fused multiply-add, no extended precision. "
  },
  {
   "property": "C67",
   "status": "proved",
   "theorems": [
    "Lalib.Props.C67_back_sub",
    "Lalib.Props.C67_chol_solve_vec",
    "Lalib.Props.C67_chol_solve_mat",
    "Lalib.Props.C67_ilu_solve",
    "Lalib.Props.C67_tdma_vec",
    "Lalib.Props.C67_tdma_mat"
   ],
   "note": "IEEE 754 numbers as in Spec/Ieee.lean: round to nearest even, infinities, one NaN, signed zeros, subnormals, overflow; no fused multiply-add, no extended precision. Incomplete LU for any storage with the contract `Storage`."
  },
  {
   "property": "C68",
   "status": "proved",
   "theorems": [
    "Lalib.Props.C68_cholesky",
    "Lalib.Props.C68_cholesky_nan",
    "Lalib.Props.C68_cholesky_solve",
    "Lalib.Props.C68_mod_cholesky",
    "Lalib.Props.C68_mod_cholesky_nan",
    "Lalib.Props.C68_mod_cholesky_solve",
    "Lalib.Props.C68_ilu",
    "Lalib.Props.C68_ilu_solve"
   ],
   "note": "IEEE 754 numbers as in Spec/Ieee.lean: round to nearest even, infinities, one NaN, signed zeros, subnormals, overflow; no fused multiply-add, no extended precision. std::pow(x, 2) is x*x of the same type (exact for double; for float the standard computes it in double)."
  },
  {
   "property": "C69",
   "status": "proved",
   "theorems": [
    "Lalib.Props.C69_run",
    "Lalib.Props.C69_finite",
    "Lalib.Props.C69_nan",
    "Lalib.Props.C69_zero",
    "Lalib.Props.C69_breakdown"
   ],
   "note": "IEEE 754 numbers as in Spec/Ieee.lean: round to nearest even, infinities, one NaN, signed zeros, subnormals, overflow; no fused multiply-add, no extended precision. The result is characterised by the recurrences of Spec/GmresEval.lean (C69_run). That the right-hand side zero gives NaN (C69_zero) is a defect of the code: 1/beta with beta = 0."
  },
  {
   "property": "C70",
   "status": "proved",
   "theorems": [
    "Lalib.Props.C70_invert",
    "Lalib.Props.C70_finite",
    "Lalib.Props.C70_singular",
    "Lalib.Props.C70_overflow",
    "Lalib.Props.C70_norm_overflow",
    "Lalib.Props.C70_norm_underflow"
   ],
   "note": "IEEE 754 numbers as in Spec/Ieee.lean. C70_singular, C70_overflow, C70_norm_overflow and C70_norm_underflow describe weaknesses of the code: diag(2^600, 2^600) is inverted to zero in double. The literal 1.0 makes the reciprocal a double; for float the statements hold for a reciprocal rounded to float."
  },
  {
   "property": "C71",
   "status": "proved",
   "theorems": [
    "Lalib.Props.C71_residual",
    "Lalib.Props.C71_back_sub",
    "Lalib.Props.C71_chol_factor",
    "Lalib.Props.C71_chol_solve_vec",
    "Lalib.Props.C71_chol_solve_mat",
    "Lalib.Props.C71_mod",
    "Lalib.Props.C71_tdma_vec",
    "Lalib.Props.C71_tdma_mat",
    "Lalib.Props.C71_ilu_factor",
    "Lalib.Props.C71_ilu_solve",
    "Lalib.Props.C71_tdma_false",
    "Lalib.Props.C71_mod_false"
   ],
   "note": "IEEE 754 numbers as in Spec/Ieee.lean. C71_tdma_false and C71_mod_false are counterexamples (valid in float and double) to the same statement without the condition on the pivots. std::pow(x, 2) is x*x of the same type."
  },
  {
   "property": "C72",
   "status": "proved",
   "theorems": [
    "Lalib.Props.C72_step",
    "Lalib.Props.C72_program",
    "Lalib.Props.C72_frame",
    "Lalib.Props.C72_program_frame",
    "Lalib.Props.C72_failure",
    "Lalib.Props.C72_unique",
    "Lalib.Props.C72_observe"
   ],
   "note": "Domain: operands hold a value, element indices in range, result vectors of add/sub not too short, inner products not of empty vectors, DynMat(n, m, arr) with n*m elements, and with NDEBUG conforming shapes; outside it C02, C03, C12-C15 tell what happens. Internal backend, exact arithmetic. The frame theorems need none of this."
  },
  {
   "property": "C73",
   "status": "proved",
   "theorems": [
    "Lalib.Props.C73_assert_chol",
    "Lalib.Props.C73_assert_tdma",
    "Lalib.Props.C73_packed_short",
    "Lalib.Props.C73_packed_long",
    "Lalib.Props.C73_square_short",
    "Lalib.Props.C73_square_long",
    "Lalib.Props.C73_mod_long",
    "Lalib.Props.C73_mod_short",
    "Lalib.Props.C73_new_wide",
    "Lalib.Props.C73_new_narrow",
    "Lalib.Props.C73_modNew_narrow",
    "Lalib.Props.C73_tdma_long",
    "Lalib.Props.C73_tdma_result",
    "Lalib.Props.C73_tdma_short",
    "Lalib.Props.C73_tdma_mat",
    "Lalib.Props.C73_ilu_short",
    "Lalib.Props.C73_ilu_leading",
    "Lalib.Props.C73_ilu_long_dense",
    "Lalib.Props.C73_ilu_long_csr",
    "Lalib.Props.C73_ilu_long_coo",
    "Lalib.Props.C73_storages_differ"
   ],
   "note": "Exact arithmetic (a division by zero is the outcome nonFinite). Incomplete LU and GMRES of a matrix that is not square: C76."
  },
  {
   "property": "C74",
   "status": "proved",
   "theorems": [
    "Lalib.Props.C74_dense",
    "Lalib.Props.C74_dense_all",
    "Lalib.Props.C74_dense_alias",
    "Lalib.Props.C74_packed",
    "Lalib.Props.C74_upper",
    "Lalib.Props.C74_hess",
    "Lalib.Props.C74_hess_col",
    "Lalib.Props.C74_hess_last",
    "Lalib.Props.C74_size",
    "Lalib.Props.C74_size_double",
    "Lalib.Props.C74_uninit",
    "Lalib.Props.C74_uninit_false"
   ],
   "note": "size_t is taken to have 64 bits and a vector fewer than 2^63 elements. The kernels use the same address expressions on positions inside the shape; the accessors are restated with wrapping operations, the kernels are not. Failure of an allocation is not modelled. The size computation needs 8n+17 < 2^64, which elements of at least 8 bytes guarantee; an example shows what happens beyond."
  },
  {
   "property": "C75",
   "status": "partial",
   "theorems": [
    "Lalib.Props.C75_neg",
    "Lalib.Props.C75_scal",
    "Lalib.Props.C75_add",
    "Lalib.Props.C75_sub",
    "Lalib.Props.C75_axpy",
    "Lalib.Props.C75_gemv",
    "Lalib.Props.C75_gemv_inplace",
    "Lalib.Props.C75_csr",
    "Lalib.Props.C75_csr_race",
    "Lalib.Props.C75_csr_false"
   ],
   "note": "False for the CSR product when x and y are the same vector (C75_csr_race, C75_csr_false); proved for all other loops (C75_neg, C75_scal, C75_add, C75_sub, C75_axpy, C75_gemv, C75_gemv_inplace, C75_csr). Accesses are atomic; vectors are the same or disjoint, never overlapping in part. The reductions are the subject of C05 and C06. The kernels under omp target, which add and sub call from 16 elements on if LALIB_USE_ACCELERATOR is defined, are covered as loops on the memory of the host; they have no map clauses, and how a device with its own memory would reach the vectors is not modelled."
  },
  {
   "property": "C76",
   "status": "proved",
   "theorems": [
    "Lalib.Props.C76_ilu_wide",
    "Lalib.Props.C76_ilu_wide_solve",
    "Lalib.Props.C76_ilu_tall_csr",
    "Lalib.Props.C76_ilu_tall_coo",
    "Lalib.Props.C76_ilu_tall_dense",
    "Lalib.Props.C76_ilu_tall_dense_solve",
    "Lalib.Props.C76_gmres_dense",
    "Lalib.Props.C76_gmres_csr",
    "Lalib.Props.C76_gmres_dense_ieee",
    "Lalib.Props.C76_gmres_csr_ieee"
   ],
   "note": "Exact arithmetic, and IEEE arithmetic for GMRES where stated (a tall CSR matrix in IEEE arithmetic is not covered: the division by zero then gives infinities or NaN). For an empty right-hand side the model reports nonFinite for the empty basis vector where the program goes on to the assertion or the read past the end."
  },
  {
   "property": "C77",
   "status": "proved",
   "theorems": [
    "Lalib.Props.C77_mat_vec",
    "Lalib.Props.C77_mat_mat",
    "Lalib.Props.C77_csr",
    "Lalib.Props.C77_add_sub",
    "Lalib.Props.C77_op_vec",
    "Lalib.Props.C77_op_mat",
    "Lalib.Props.C77_op_add_sub",
    "Lalib.Props.C77_op_csr",
    "Lalib.Props.C77_mat_vec_debug",
    "Lalib.Props.C77_mat_mat_debug",
    "Lalib.Props.C77_add_sub_debug",
    "Lalib.Props.C77_csr_debug"
   ],
   "note": "Internal backend. The CSR product with x and y the same vector is left out (C75). No assumption on the number of elements of a DynMat in the mul, add and sub forms; the operators are stated for matrices with rows*columns elements. The overload mul(SizedMat, SizedMat, DynMat&) compiles only with NDEBUG and is then the model's gemmSDD."
  },
  {
   "property": "C78",
   "status": "proved",
   "theorems": [
    "Lalib.Props.C78_arrays",
    "Lalib.Props.C78_use",
    "Lalib.Props.C78_dense_stable",
    "Lalib.Props.C78_sparse_stable",
    "Lalib.Props.C78_write",
    "Lalib.Props.C78_alias",
    "Lalib.Props.C78_dense_dangling",
    "Lalib.Props.C78_sparse_dangling",
    "Lalib.Props.C78_dense_move",
    "Lalib.Props.C78_sparse_move",
    "Lalib.Props.C78_reuse",
    "Lalib.Props.C78_extend",
    "Lalib.Props.C78_range_for",
    "Lalib.Props.C78_own_scalar"
   ],
   "note": "Model/Views.lean adds to the stores of C64 and C72 a table of arrays: which array each object owns, and references as a position in an array. Whether std::vector allocates in a copy assignment or insertion is a free choice of the program (its capacity is not modelled); an array that is given up gets a new generation, so that a reference to it is recognised. For sparse matrices the references are to stored values. Vectors and matrices of static size have their elements inside the object and are not part of this model."
  },
  {
   "property": "C79",
   "status": "proved",
   "theorems": [
    "Lalib.Props.C79_principal",
    "Lalib.Props.C79_norm2",
    "Lalib.Props.C79_norm2_euclid",
    "Lalib.Props.C79_norm2_zero",
    "Lalib.Props.C79_norm2_isotropic",
    "Lalib.Props.C79_norm2_scale",
    "Lalib.Props.C79_norm2_order",
    "Lalib.Props.C79_hermite_iff",
    "Lalib.Props.C79_hermite_write"
   ],
   "note": "Over the complex numbers of Mathlib, for any root function with r*r = z and re r >= 0 (the principal branch is one; on the negative real axis the library chooses by the sign of a zero, so both roots are admitted). dot and everything that needs Zero<T>, One<T> do not compile for complex elements."
  },
  {
   "property": "C80",
   "status": "proved",
   "theorems": [
    "Lalib.Props.C80_const",
    "Lalib.Props.C80_ops",
    "Lalib.Props.C80_add_sub",
    "Lalib.Props.C80_scale",
    "Lalib.Props.C80_axpy",
    "Lalib.Props.C80_gemv",
    "Lalib.Props.C80_gemm",
    "Lalib.Props.C80_norm2",
    "Lalib.Props.C80_norm2_any_order"
   ],
   "note": "Cx (Fl R): pairs of rounded numbers, the product by the formula with four products. Overflow, underflow and the recomputation of NaN products are outside (Fl has no infinities). The root itself is not analysed. The operators A*x, A*B do not compile for complex elements (the literal 1.0), so the functions mul are meant."
  },
  {
   "property": "C81",
   "status": "proved",
   "theorems": [
    "Lalib.Props.C81_cgs",
    "Lalib.Props.C81_returns",
    "Lalib.Props.C81_rounded",
    "Lalib.Props.C81_two",
    "Lalib.Props.C81_two_returns",
    "Lalib.Props.C81_ieee",
    "Lalib.Props.C81_ieee_finite",
    "Lalib.Props.C81_ieee_zero",
    "Lalib.Props.C81_ieee_false"
   ],
   "note": "The scalar products are summed in the order of the index. No bound for the loss of orthogonality of a whole family in terms of its condition is given (the inequality for w_k.w_j is recursive)."
  },
  {
   "property": "C82",
   "status": "proved",
   "theorems": [
    "Lalib.Props.C82_step",
    "Lalib.Props.C82_program",
    "Lalib.Props.C82_frame",
    "Lalib.Props.C82_program_frame",
    "Lalib.Props.C82_reuse",
    "Lalib.Props.C82_start"
   ],
   "note": "A statement is valid when its operands exist, matrices to be factorised are square (for Ilu they may have more columns than rows; for Cholesky they are symmetric with a positive first entry, see C36), a tri-diagonal matrix has two rows or more (C34), systems solved by TriDiag (no pivoting), Ilu and Gmres are regular and the right-hand side of Gmres is not zero (C45). With SpMat or triangular matrices as the type parameter the solvers are covered by C35-C47 only, one call at a time."
  },
  {
   "property": "C83",
   "status": "proved",
   "theorems": [
    "Lalib.Props.C83_end",
    "Lalib.Props.C83_granted",
    "Lalib.Props.C83_noexcept",
    "Lalib.Props.C83_strong",
    "Lalib.Props.C83_taken",
    "Lalib.Props.C83_sharp_refuse",
    "Lalib.Props.C83_sharp_die",
    "Lalib.Props.C83_program",
    "Lalib.Props.C83_basic"
   ],
   "note": "The contract of std::vector (what asks for memory, no effect of a refused reserve or insertion at the end, empty after a move) is assumed. A refused request is modelled where the library may ask for memory, also where an implementation would not ask. Sharpness (d) is per call. The vector and matrix operations without exceptions of their own (all noexcept) are not among the calls: there every refused request ends the program."
  },
  {
   "property": "C84",
   "status": "proved",
   "theorems": [
    "Lalib.Props.C84_dominant",
    "Lalib.Props.C84_dominant_mat",
    "Lalib.Props.C84_bounded",
    "Lalib.Props.C84_bounded_mat",
    "Lalib.Props.C84_error"
   ],
   "note": "IEEE 754 numbers as in Spec/Ieee.lean. (a) uses that rounding is monotone and that differences do not underflow, so it needs no margin, unlike C60."
  },
  {
   "property": "C85",
   "status": "proved",
   "theorems": [
    "Lalib.Props.C85_factor",
    "Lalib.Props.C85_error",
    "Lalib.Props.C85_solve_vec",
    "Lalib.Props.C85_solve_mat",
    "Lalib.Props.C85_dominant",
    "Lalib.Props.C85_refused"
   ],
   "note": "IEEE 754 numbers as in Spec/Ieee.lean, with gradual underflow. The condition is in the scale of the diagonal (van der Sluis), so badly scaled matrices are covered. C85_refused shows that some condition is needed."
  },
  {
   "property": "C86",
   "status": "proved",
   "theorems": [
    "Lalib.Props.C86_ieee_factor",
    "Lalib.Props.C86_ieee_solve",
    "Lalib.Props.C86_ieee_error",
    "Lalib.Props.C86_factor",
    "Lalib.Props.C86_solve",
    "Lalib.Props.C86_bound",
    "Lalib.Props.C86_m_matrix",
    "Lalib.Props.C86_noFill",
    "Lalib.Props.C86_gmres",
    "Lalib.Props.C86_strict_false"
   ],
   "note": "The gap in (b) is |a_ii| w_i less (1 + gam(6(n+1))) times the rest of the row and all underflows (ieeeGap). C86_strict_false: equality in one row is too little."
  },
  {
   "property": "C87",
   "status": "proved",
   "theorems": [
    "Lalib.Props.C87_dot",
    "Lalib.Props.C87_dot_any_order",
    "Lalib.Props.C87_norm2",
    "Lalib.Props.C87_norm2_any_order",
    "Lalib.Props.C87_cross2",
    "Lalib.Props.C87_gemv",
    "Lalib.Props.C87_gemm",
    "Lalib.Props.C87_spmv",
    "Lalib.Props.C87_spmv_op",
    "Lalib.Props.C87_back_sub",
    "Lalib.Props.C87_chol_factor",
    "Lalib.Props.C87_chol_accepts",
    "Lalib.Props.C87_chol_rejects",
    "Lalib.Props.C87_chol_solve_vec",
    "Lalib.Props.C87_chol_solve_mat",
    "Lalib.Props.C87_mod_chol",
    "Lalib.Props.C87_tdma",
    "Lalib.Props.C87_tdma_dominant",
    "Lalib.Props.C87_tdma_dominant_mat",
    "Lalib.Props.C87_ilu_factor",
    "Lalib.Props.C87_ilu_solve",
    "Lalib.Props.C87_fma",
    "Lalib.Props.C87_singular_false",
    "Lalib.Props.C87_cross_equal_false"
   ],
   "note": "Noisy is a structure with the error bounds as fields; contracted R fuse and Rounding.noisy are the two instances. C87_singular_false and C87_cross_equal_false: what is lost."
  },
  {
   "property": "C88",
   "status": "proved",
   "theorems": [
    "Lalib.Props.C88_dot",
    "Lalib.Props.C88_dot_any_shape",
    "Lalib.Props.C88_norm2",
    "Lalib.Props.C88_add",
    "Lalib.Props.C88_axpy",
    "Lalib.Props.C88_scale",
    "Lalib.Props.C88_cross",
    "Lalib.Props.C88_cgs",
    "Lalib.Props.C88_gemv",
    "Lalib.Props.C88_gemm",
    "Lalib.Props.C88_spmv",
    "Lalib.Props.C88_back_sub",
    "Lalib.Props.C88_cholesky",
    "Lalib.Props.C88_mod_cholesky",
    "Lalib.Props.C88_chol_solve_vec",
    "Lalib.Props.C88_chol_solve_mat",
    "Lalib.Props.C88_ilu",
    "Lalib.Props.C88_ilu_solve",
    "Lalib.Props.C88_tdma_vec",
    "Lalib.Props.C88_tdma_mat",
    "Lalib.Props.C88_gmres",
    "Lalib.Props.C88_gmres_powers",
    "Lalib.Props.C88_factors",
    "Lalib.Props.C88_signs",
    "Lalib.Props.C88_ilu_powers",
    "Lalib.Props.C88_dot_neg",
    "Lalib.Props.C88_no_powers"
   ],
   "note": "Scaling is a structure; Fl.scaling R and Fp.scaling F are the instances. SameOut includes the calls that fail. C88_no_powers: doubling is no symmetry of IEEE arithmetic. C88_gmres is for rounded arithmetic without range limits; matrices of one class with the same stored positions."
  },
  {
   "property": "C89",
   "status": "proved",
   "theorems": [
    "Lalib.Props.C89_binary",
    "Lalib.Props.C89_dot",
    "Lalib.Props.C89_dot_any_shape",
    "Lalib.Props.C89_norm2",
    "Lalib.Props.C89_gemv",
    "Lalib.Props.C89_gemm",
    "Lalib.Props.C89_spmv",
    "Lalib.Props.C89_back_sub",
    "Lalib.Props.C89_cholesky",
    "Lalib.Props.C89_mod_cholesky",
    "Lalib.Props.C89_chol_solve_vec",
    "Lalib.Props.C89_chol_solve_mat",
    "Lalib.Props.C89_ilu",
    "Lalib.Props.C89_ilu_solve",
    "Lalib.Props.C89_tdma_vec",
    "Lalib.Props.C89_tdma_mat",
    "Lalib.Props.C89_tdma_ieee",
    "Lalib.Props.C89_chol_ieee"
   ],
   "note": "OrdArith is a structure; Fl.ordArith R (R monotone) and Fp.ordArith F are the instances. The hypothesis that the second result be finite cannot be dropped for IEEE numbers, where it may overflow."
  },
  {
   "property": "C90",
   "status": "proved",
   "theorems": [
    "Lalib.Props.C90_vec",
    "Lalib.Props.C90_cross",
    "Lalib.Props.C90_gemv",
    "Lalib.Props.C90_gemm",
    "Lalib.Props.C90_fits",
    "Lalib.Props.C90_mat",
    "Lalib.Props.C90_unsigned_gemv",
    "Lalib.Props.C90_unsigned_gemm",
    "Lalib.Props.C90_unsigned_vec"
   ],
   "note": "SInt b is a signed type no narrower than int (no integral promotions); over stands for an overflow that has happened. dot, norm2, A*x, A*B, -A and the sparse and structured matrices do not compile for integers (DESIGN.md, Instantiations)."
  },
  {
   "property": "C91",
   "status": "proved",
   "theorems": [
    "Lalib.Props.C91_inverse",
    "Lalib.Props.C91_forward",
    "Lalib.Props.C91_back_sub",
    "Lalib.Props.C91_tdma",
    "Lalib.Props.C91_chol",
    "Lalib.Props.C91_ilu",
    "Lalib.Props.C91_residual",
    "Lalib.Props.C91_residual_sparse",
    "Lalib.Props.C91_residual_ieee"
   ],
   "note": "K is a hypothesis about the given matrix (C91_inverse gives two ways to establish it). Norms are stated by their defining inequalities."
  },
  {
   "property": "C92",
   "status": "proved",
   "theorems": [
    "Lalib.Props.C92_step",
    "Lalib.Props.C92_refine",
    "Lalib.Props.C92_limit",
    "Lalib.Props.C92_tdma",
    "Lalib.Props.C92_chol",
    "Lalib.Props.C92_ilu"
   ],
   "note": "The loop is a user program, the functions it calls are those of the library. r, d and x are distinct objects, different from A and b."
  },
  {
   "property": "C93",
   "status": "proved",
   "theorems": [
    "Lalib.Props.C93_dot",
    "Lalib.Props.C93_dot_any_shape",
    "Lalib.Props.C93_norm2",
    "Lalib.Props.C93_add",
    "Lalib.Props.C93_axpy",
    "Lalib.Props.C93_scale",
    "Lalib.Props.C93_cross",
    "Lalib.Props.C93_gemv",
    "Lalib.Props.C93_gemm",
    "Lalib.Props.C93_spmv",
    "Lalib.Props.C93_cgs",
    "Lalib.Props.C93_tdma",
    "Lalib.Props.C93_cholesky",
    "Lalib.Props.C93_mod_cholesky",
    "Lalib.Props.C93_chol_solve",
    "Lalib.Props.C93_back_sub",
    "Lalib.Props.C93_ilu",
    "Lalib.Props.C93_ilu_solve",
    "Lalib.Props.C93_chol_system",
    "Lalib.Props.C93_continuous_cholesky",
    "Lalib.Props.C93_continuous_tdma",
    "Lalib.Props.C93_ilu_jump",
    "Lalib.Props.C93_precision_cholesky",
    "Lalib.Props.C93_precision_tdma",
    "Lalib.Props.C93_precision_back_sub",
    "Lalib.Props.C93_derivative_cholesky",
    "Lalib.Props.C93_derivative_tdma",
    "Lalib.Props.C93_interval_cholesky",
    "Lalib.Props.C93_interval_tdma"
   ],
   "note": "C93_cholesky asks for a positive first entry: the code accepts a matrix with a bad first pivot (C36_false). C93_ilu asks that zeros of the matrix are zeros in the family; C93_ilu_jump shows that this is needed. Iterations with a stopping test (GMRES) are not covered. Dual numbers and intervals are element types of the user; the library is a template and takes any type with these operations."
  },
  {
   "property": "C94",
   "status": "proved",
   "theorems": [
    "Lalib.Props.C94_dot",
    "Lalib.Props.C94_dot_any_shape",
    "Lalib.Props.C94_norm2",
    "Lalib.Props.C94_add",
    "Lalib.Props.C94_axpy",
    "Lalib.Props.C94_scale",
    "Lalib.Props.C94_cross",
    "Lalib.Props.C94_gemv",
    "Lalib.Props.C94_gemm",
    "Lalib.Props.C94_mat_elementwise",
    "Lalib.Props.C94_invert",
    "Lalib.Props.C94_vec_values",
    "Lalib.Props.C94_mat_values",
    "Lalib.Props.C94_coo",
    "Lalib.Props.C94_spmv",
    "Lalib.Props.C94_csr",
    "Lalib.Props.C94_hessenberg",
    "Lalib.Props.C94_upper",
    "Lalib.Props.C94_structured",
    "Lalib.Props.C94_cgs",
    "Lalib.Props.C94_tdma",
    "Lalib.Props.C94_cholesky",
    "Lalib.Props.C94_mod_cholesky",
    "Lalib.Props.C94_chol_solve",
    "Lalib.Props.C94_classes",
    "Lalib.Props.C94_ilu",
    "Lalib.Props.C94_ilu_solve",
    "Lalib.Props.C94_gmres",
    "Lalib.Props.C94_hom"
   ],
   "note": "C93 is about limits and one-sided descriptions and asks for a successful run; C94 is two-sided, covers failures, the sparse sums and GMRES. The correspondence of the element types is a hypothesis (structure Twin); instances: field homomorphisms (Spec/Twin.lean), executable IEEE numbers (C95)."
  },
  {
   "property": "C95",
   "status": "proved",
   "theorems": [
    "Lalib.Props.C95_number",
    "Lalib.Props.C95_arith",
    "Lalib.Props.C95_vec",
    "Lalib.Props.C95_mat",
    "Lalib.Props.C95_sparse",
    "Lalib.Props.C95_direct",
    "Lalib.Props.C95_iterative"
   ],
   "note": "The real-number definition of the IEEE operations is that of Spec/Ieee.lean (one NaN, no flags, no fma). Through this the concrete runs of Suite modules and examples are statements about double."
  },
  {
   "property": "C96",
   "status": "partial",
   "theorems": [
    "Lalib.Props.C96_value",
    "Lalib.Props.C96_exact_partial",
    "Lalib.Props.C96_error_partial",
    "Lalib.Props.C96_overflow_iff",
    "Lalib.Props.C96_overflow_false",
    "Lalib.Props.C96_power_of_two_partial",
    "Lalib.Props.C96_quotient_false"
   ],
   "note": "The quotient is returned for divisors with an exact reciprocal (C96_exact_partial, C96_power_of_two_partial) and approximated where the reciprocal is normal (C96_error_partial); for other divisors it is not, by C96_overflow_false and C96_quotient_false. Nothing is missing from the proofs; the code divides by multiplying with a rounded reciprocal. The operator does not compile for float (DESIGN.md, Instantiations); the theorems are for all formats."
  },
  {
   "property": "C97",
   "status": "proved",
   "theorems": [
    "Lalib.Props.C97_rank",
    "Lalib.Props.C97_no_fill",
    "Lalib.Props.C97_cover",
    "Lalib.Props.C97_periodic",
    "Lalib.Props.C97_rate",
    "Lalib.Props.C97_small_fill",
    "Lalib.Props.C97_definite",
    "Lalib.Props.C97_tolerance"
   ],
   "note": "The vector returned is that of C51; the theorems are about exact arithmetic."
  },
  {
   "property": "C98",
   "status": "proved",
   "theorems": [
    "Lalib.Props.C98_same_outcome",
    "Lalib.Props.C98_ilu",
    "Lalib.Props.C98_throw",
    "Lalib.Props.C98_throw_false",
    "Lalib.Props.C98_second_false",
    "Lalib.Props.C98_gmres",
    "Lalib.Props.C98_resid",
    "Lalib.Props.C98_iff",
    "Lalib.Props.C98_upper",
    "Lalib.Props.C98_gmres_false"
   ],
   "note": "X& must be written by the user: the parameter M&& of the constructors is not a forwarding reference, so deduction gives X. C98_gmres_false and C98_iff say that the solver over a reference is wrong."
  },
  {
   "property": "C99",
   "status": "proved",
   "theorems": [
    "Lalib.Props.C99_same",
    "Lalib.Props.C99_same_operators",
    "Lalib.Props.C99_same_mat",
    "Lalib.Props.C99_same_mat_operators",
    "Lalib.Props.C99_absent",
    "Lalib.Props.C99_operators_false",
    "Lalib.Props.C99_mat_operators_false",
    "Lalib.Props.C99_present",
    "Lalib.Props.C99_present_mat",
    "Lalib.Props.C99_iff",
    "Lalib.Props.C99_sub_iff",
    "Lalib.Props.C99_directives",
    "Lalib.Props.C99_directives_false"
   ],
   "note": "C99_operators_false, C99_mat_operators_false and C99_directives_false state what is wrong; C99_iff and C99_sub_iff give the exact domain of add and sub. A mapped section starts at the first element of its object. __axpy_core_accelerator is called from nowhere."
  },
  {
   "property": "C100",
   "status": "proved",
   "theorems": [
    "Lalib.Props.C100_tri",
    "Lalib.Props.C100_upper",
    "Lalib.Props.C100_hess",
    "Lalib.Props.C100_small",
    "Lalib.Props.C100_small_solves",
    "Lalib.Props.C100_packed_total",
    "Lalib.Props.C100_packed_diag",
    "Lalib.Props.C100_packed_two",
    "Lalib.Props.C100_packed_iff",
    "Lalib.Props.C100_packed_false"
   ],
   "note": "C100_packed_false is a concrete wrong solution. The exact domain for the lower-triangular and Hermitian classes is given for order 2; for higher orders only that diagonal matrices are right."
  },
  {
   "property": "C101",
   "status": "proved",
   "theorems": [
    "Lalib.Props.C101_decimal",
    "Lalib.Props.C101_text",
    "Lalib.Props.C101_tells",
    "Lalib.Props.C101_operations",
    "Lalib.Props.C101_handlers"
   ],
   "note": "std::to_string is modelled by its standard meaning. The texts of the other exceptions are fixed literals and are not modelled."
  },
  {
   "property": "C102",
   "status": "proved",
   "theorems": [
    "Lalib.Props.C102_threads",
    "Lalib.Props.C102_alone",
    "Lalib.Props.C102_ilu",
    "Lalib.Props.C102_ilu_csr",
    "Lalib.Props.C102_gmres",
    "Lalib.Props.C102_gmres_csr",
    "Lalib.Props.C102_race",
    "Lalib.Props.C102_lapack_race",
    "Lalib.Props.C102_lost"
   ],
   "note": "Loads and stores are atomic steps in the model; in C++ this is justified by the absence of races, which is proved. Loops under omp simd run in index order; that other orders make no difference is C75. Calls that return new objects, the factorisations and GMRES are not among the calls; sizes do not change while the threads run."
  },
  {
   "property": "C103",
   "status": "proved",
   "theorems": [
    "Lalib.Props.C103_step",
    "Lalib.Props.C103_fixed",
    "Lalib.Props.C103_converges",
    "Lalib.Props.C103_m_matrix",
    "Lalib.Props.C103_limit",
    "Lalib.Props.C103_monotone",
    "Lalib.Props.C103_any_matrix_false",
    "Lalib.Props.C103_rounded_step",
    "Lalib.Props.C103_rounded",
    "Lalib.Props.C103_rounded_limit",
    "Lalib.Props.C103_stop",
    "Lalib.Props.C103_stop_m_matrix"
   ],
   "note": "Exact arithmetic, and rounded arithmetic without overflow and underflow (C103_rounded). C92 is the iteration under a condition on the size of the dropped entries instead. The program is the user's; it is composed of calls of the library."
  },
  {
   "property": "C104",
   "status": "proved",
   "theorems": [
    "Lalib.Props.C104_gmres",
    "Lalib.Props.C104_m_matrix"
   ],
   "note": "Exact arithmetic. The number of steps is that of the Krylov vectors of which the result is a combination, as in C51."
  },
  {
   "property": "C105",
   "status": "proved",
   "theorems": [
    "Lalib.Props.C105_agree",
    "Lalib.Props.C105_tri",
    "Lalib.Props.C105_gmres_trip",
    "Lalib.Props.C105_chol_trip",
    "Lalib.Props.C105_ilu_trip",
    "Lalib.Props.C105_mod_trip"
   ],
   "note": "Exact arithmetic. Order 1 is excluded for TriDiag because the internal kernel fails there (C34). How far the results can differ with rounding follows from C91."
  },
  {
   "property": "C106",
   "status": "proved",
   "theorems": [
    "Lalib.Props.C106_step",
    "Lalib.Props.C106_program",
    "Lalib.Props.C106_ref",
    "Lalib.Props.C106_ref_dyn",
    "Lalib.Props.C106_vec_value",
    "Lalib.Props.C106_mat_value"
   ],
   "note": "SizedMat::Iter is declared as the iterator of an array of another size; it is taken to be a pointer, as in libstdc++. Names of objects are sizes and numbers, so only programs that compile can be written down."
  },
  {
   "property": "C107",
   "status": "proved",
   "theorems": [
    "Lalib.Props.C107_select",
    "Lalib.Props.C107_select_vec",
    "Lalib.Props.C107_select_sparse",
    "Lalib.Props.C107_transpose",
    "Lalib.Props.C107_gram",
    "Lalib.Props.C107_dot",
    "Lalib.Props.C107_gram_ieee",
    "Lalib.Props.C107_transpose_ieee",
    "Lalib.Props.C107_cholesky",
    "Lalib.Props.C107_cholesky_order",
    "Lalib.Props.C107_no_fill",
    "Lalib.Props.C107_tdma",
    "Lalib.Props.C107_tdma_dominant",
    "Lalib.Props.C107_tdma_false",
    "Lalib.Props.C107_ilu_false"
   ],
   "note": "In (1) the result is an object of its own in both calls; C55_gemm_start says when sharing makes no difference."
  },
  {
   "property": "C108",
   "status": "proved",
   "theorems": [
    "Lalib.Props.C108_cholesky",
    "Lalib.Props.C108_mod_cholesky",
    "Lalib.Props.C108_cholesky_ieee",
    "Lalib.Props.C108_ilu",
    "Lalib.Props.C108_ilu_ieee",
    "Lalib.Props.C108_back_sub",
    "Lalib.Props.C108_cgs"
   ],
   "note": "For the plain Cholesky class the statement includes matrices whose first pivot is not positive, which are returned as they are (C36_false)."
  },
  {
   "property": "C109",
   "status": "proved",
   "theorems": [
    "Lalib.Props.C109_det_mod",
    "Lalib.Props.C109_det_ilu",
    "Lalib.Props.C109_det_chol",
    "Lalib.Props.C109_det_cgs",
    "Lalib.Props.C109_inertia",
    "Lalib.Props.C109_posdef",
    "Lalib.Props.C109_eigenvalues",
    "Lalib.Props.C109_rounded",
    "Lalib.Props.C109_ieee"
   ],
   "note": "A matrix with a vanishing leading minor is not accepted by the modified Cholesky class (C38_throws), whatever its index."
  },
  {
   "property": "C110",
   "status": "proved",
   "theorems": [
    "Lalib.Props.C110_linear_chol",
    "Lalib.Props.C110_linear_tdma",
    "Lalib.Props.C110_linear_ilu",
    "Lalib.Props.C110_linear_backSub",
    "Lalib.Props.C110_inverse_chol",
    "Lalib.Props.C110_inverse_mod",
    "Lalib.Props.C110_inverse_tdma",
    "Lalib.Props.C110_inverse_columns",
    "Lalib.Props.C110_gmres_false"
   ],
   "note": "Superposition fails for GMRES in general (C110_gmres_false); there the claim is that failure."
  },
  {
   "property": "C111",
   "status": "proved",
   "theorems": [
    "Lalib.Props.C111_regular_rounded",
    "Lalib.Props.C111_regular_ieee",
    "Lalib.Props.C111_solution_ieee",
    "Lalib.Props.C111_posdef_rounded",
    "Lalib.Props.C111_posdef_ieee"
   ],
   "note": "The sums in the premises are exact sums of the computed numbers; C66 and C57 bound what summing them in floating point changes."
  },
  {
   "property": "C112",
   "status": "proved",
   "theorems": [
    "Lalib.Props.C112_energy_chol",
    "Lalib.Props.C112_energy_mod",
    "Lalib.Props.C112_monotone",
    "Lalib.Props.C112_least_squares",
    "Lalib.Props.C112_projection"
   ],
   "note": ""
  },
  {
   "property": "C113",
   "status": "proved",
   "theorems": [
    "Lalib.Props.C113_cramer_chol",
    "Lalib.Props.C113_cramer_mod",
    "Lalib.Props.C113_cramer_tdma",
    "Lalib.Props.C113_cramer_ilu",
    "Lalib.Props.C113_cramer_backSub",
    "Lalib.Props.C113_update_chol",
    "Lalib.Props.C113_update_mod"
   ],
   "note": ""
  },
  {
   "property": "C114",
   "status": "proved",
   "theorems": [
    "Lalib.Props.C114_closed",
    "Lalib.Props.C114_two_stage_chol",
    "Lalib.Props.C114_two_stage_mod"
   ],
   "note": ""
  },
  {
   "property": "C115",
   "status": "proved",
   "theorems": [
    "Lalib.Props.C115_run",
    "Lalib.Props.C115_order",
    "Lalib.Props.C115_lower",
    "Lalib.Props.C115_upper",
    "Lalib.Props.C115_content",
    "Lalib.Props.C115_decay",
    "Lalib.Props.C115_tdma",
    "Lalib.Props.C115_chol",
    "Lalib.Props.C115_mod",
    "Lalib.Props.C115_heat"
   ],
   "note": ""
  },
  {
   "property": "C116",
   "status": "proved",
   "theorems": [
    "Lalib.Props.C116_error",
    "Lalib.Props.C116_bounded",
    "Lalib.Props.C116_growth",
    "Lalib.Props.C116_tdma",
    "Lalib.Props.C116_chol",
    "Lalib.Props.C116_heat",
    "Lalib.Props.C116_order",
    "Lalib.Props.C116_order_rounded"
   ],
   "note": ""
  },
  {
   "property": "C117",
   "status": "proved",
   "theorems": [
    "Lalib.Props.C117_between",
    "Lalib.Props.C117_residual",
    "Lalib.Props.C117_monotone",
    "Lalib.Props.C117_stationary",
    "Lalib.Props.C117_inverse_step",
    "Lalib.Props.C117_power_step",
    "Lalib.Props.C117_inverse",
    "Lalib.Props.C117_power",
    "Lalib.Props.C117_chol",
    "Lalib.Props.C117_tdma",
    "Lalib.Props.C117_dense",
    "Lalib.Props.C117_inverse_chol",
    "Lalib.Props.C117_power_dense"
   ],
   "note": ""
  },
  {
   "property": "C118",
   "status": "proved",
   "theorems": [
    "Lalib.Props.C118_numbers",
    "Lalib.Props.C118_step",
    "Lalib.Props.C118_steps",
    "Lalib.Props.C118_limit",
    "Lalib.Props.C118_tdma",
    "Lalib.Props.C118_chol",
    "Lalib.Props.C118_semilinear",
    "Lalib.Props.C118_boundary_value"
   ],
   "note": ""
  },
  {
   "property": "C119",
   "status": "proved",
   "theorems": [
    "Lalib.Props.C119_step",
    "Lalib.Props.C119_steps",
    "Lalib.Props.C119_rate",
    "Lalib.Props.C119_quadratic",
    "Lalib.Props.C119_limit",
    "Lalib.Props.C119_tdma",
    "Lalib.Props.C119_chol",
    "Lalib.Props.C119_semilinear"
   ],
   "note": ""
  },
  {
   "property": "C120",
   "status": "proved",
   "theorems": [
    "Lalib.Props.C120_orthogonal",
    "Lalib.Props.C120_divisor",
    "Lalib.Props.C120_residual",
    "Lalib.Props.C120_finite",
    "Lalib.Props.C120_decrease",
    "Lalib.Props.C120_optimal",
    "Lalib.Props.C120_program",
    "Lalib.Props.C120_dense",
    "Lalib.Props.C120_csr"
   ],
   "note": ""
  },
  {
   "property": "C121",
   "status": "proved",
   "theorems": [
    "Lalib.Props.C121_minimum",
    "Lalib.Props.C121_constrained"
   ],
   "note": ""
  },
  {
   "property": "C122",
   "status": "proved",
   "theorems": [
    "Lalib.Props.C122_change",
    "Lalib.Props.C122_split",
    "Lalib.Props.C122_program"
   ],
   "note": ""
  }
 ]
}