# Design of the formal model of lalib

The library is a C++ header library (`/repo/include/lalib`).  The model is written in Lean 4
(`/verif/lean/Verif`), one definition per C++ function, and the properties of
`properties.jsonl` are theorems about these definitions.

## 1. Trusted base

* Lean's kernel, and for each theorem the axioms printed by `#print axioms`: only `propext`,
  `Classical.choice`, `Quot.sound`.  No axiom is declared, no `sorry`, no `native_decide`.
* The reading of the C++ source: each model definition cites the file and lines it transcribes and
  lists its simplifications.  Nothing checks the transcription mechanically.
* Exact arithmetic.  Where a property is about sums, products or quotients the scalars form a
  commutative ring / (ordered) field.  C56-C62 run the same model functions over rounded arithmetic
  (`Spec/Float.lean`): each operation returns its exact result, rounded with a relative error of at most `u`, and
  `binary p` (round to nearest, ties to even, `p` bits) is such a rounding.  In both, a division by zero, or the
  square root of a negative number, is a distinct outcome (`Fault.nonFinite`), not a totalised value.
* From C65 on the same model functions run over IEEE 754 numbers (`Spec/Ieee.lean`: `Fp binary32`, `Fp binary64`):
  overflow, underflow, infinities, NaN (one, without payload) and signed zeros; there every division and square root yields
  a number.  Not modelled: status flags, traps.  Contraction of `a*b+c` to a fused operation and extended intermediate
  precision are not part of C65 to C86; C87 repeats the error bounds for any arithmetic with accurate operations, which
  covers both (`Spec/Noisy.lean`; the exponent range is unbounded there).  `std::pow(x, 2)` is read as `x*x` (`cholesky_decomposition.hpp`, `gmres.hpp`); for `float` C++ evaluates it
  in `double`, and so are the literals `1.0`, so the statements about these two functions are meant for `double`.
* Properties that need no arithmetic law (element-wise
  operations, storage, sparse look-ups, schedules) are proved for an arbitrary scalar type with
  arbitrary operations and so hold for IEEE types bit for bit.
* `size_t` index arithmetic is over the natural numbers (an underflow is modelled explicitly where the
  code can produce one).  The same accessors with sums and products modulo 2^64 are the subject of C74; the
  32-bit loop counters are the subject of C47.
* The standard library by contract: `std::vector`, `std::ranges::sort` (any sorting permutation),
  `std::upper_bound` (UB unless partitioned), `std::max_element` (dereferencing `end` is UB).
* BLAS and LAPACK, which are not part of `/repo`: `cblas_?gemv/?gemm` by specification (C17), the level-1 routines
  and `?gtsv` transcribed from the reference implementation (C52-C54), `?potrf/?potrs` by contract
  (`Spec/Lapack.lean`, shown satisfiable).

## 2. Outcomes

`Res α = Except Fault α`, where `Fault` separates `ub` (undefined behaviour: out-of-bounds access,
dangling reference, empty `max_element`, ...), `throw e` (a C++ exception reaching the caller),
`terminate` (an exception leaving a `noexcept` function), `assertFail` (assertion failing in a debug build;
assertions take the parameter `nd` = NDEBUG), `nonFinite` and `diverge`.
A theorem that says `f ... = .ok r` therefore says: no UB, no exception, terminates, result `r`.

## 3. Memory and aliasing

`Mem T` maps buffer identifiers to lists; a C++ reference or pointer is an identifier and aliasing is
equality of identifiers.  Every access is bounds-checked.  Loops are `forRange`, `forDown` and
`forRet` (with early return); `Verif/Core` has their invariant rules.

## 4. Properties

| id | modelled | proof | status |
|----|----------|-------|--------|
| C01 | kernels and overloads of `vec_ops*.hpp` on `Mem` | loop invariant, arbitrary scalar ops | proved |
| C02 | overload-level size checks, `noexcept` as terminate | case analysis | proved |
| C03 | same overloads | false (result size unchecked): counterexample + `_partial` | partial |
| C04 | small-step interleaving of read/read/write micro-steps per iteration | invariant over all schedules | proved |
| C05 | dot kernel, reduction trees | induction; empty case is UB in the code: counterexample + `_partial` | partial |
| C06 | norm2 kernel with checked sqrt | ordered field, reals | proved |
| C07 | cross kernels on `Mem` | ring identities | proved |
| C08 | scalar operators | element-wise + ring | proved |
| C09 | DynMat/SizedMat accessors | index injectivity | proved |
| C10 | factories and constructors | induction on loops | proved |
| C11 | DynMat constructor | false: counterexample + `_partial` | partial |
| C12 | gemv internal kernel and overloads | nested loop invariants | proved |
| C13 | gemm internal kernel and overloads | nested loop invariants | proved |
| C14 | matrix element-wise ops | reuse of C01 kernels | proved |
| C15 | operators composed | sums | proved |
| C16 | 2x2 invert | field identities | proved |
| C17 | BLAS call parameters, CBLAS semantics | false in general: counterexamples + `_partial` | partial |
| C18 | TriDiag accessors | dangling zero reference: counterexample + `_partial` | partial |
| C19 | Hessenberg constructor and accessors | number theory of perfect squares; injectivity | proved |
| C20 | Hessenberg growth | invariant over histories | proved, modulo the n=0 layout of extend_with |
| C21 | upper-triangular packed matrix | same; constructor terminates instead of throwing | partial |
| C22 | back_sub | downward loop invariant | proved |
| C23 | packed lower/Hermitian | injectivity; "0 above the diagonal" false | partial |
| C24-C33 | COO and CSR matrices | lists of triplets, lookup specification | C26, C27, C31, C33 partial (false in corner cases) |
| C34 | TDMA | forward/backward recurrences; n=1 is UB | partial |
| C35-C39 | Cholesky kernels on two storages | loop invariants; C36 false for the first pivot | C36 partial |
| C40-C43 | ILU over an abstract matrix interface, three instances | invariant of the IKJ elimination | C41 partial (false) |
| C44 | cgs | invariant, inner product algebra | proved; m=0 UB |
| C45-C46, C51 | GMRES over the same matrix interface | Arnoldi/Givens invariants, dimension argument, minimality over Krylov spaces | proved (exact arithmetic) |
| C47 | wrap-around counters | false above 2^32: exact characterisation | partial |
| C48 | three storage instances of C40 | simulation | proved |
| C49 | operation histories | invariant | proved |
| C50 | value-returning operators on `Mem` | frame conditions | proved |
| C52 | TriDiag with LAPACK, reference `?gtsv` | elimination with row interchanges: solution sets kept; second call false | partial |
| C53 | both backends | uniqueness of solutions and factors; false where pivoting is needed / first pivot | partial |
| C54 | level-1 BLAS calls with 32-bit size | agreement below 2^31, counterexample above | partial |
| C55 | the kernels over bare operations | results as expressions (`Spec/Eval.lean`); recurrences have one solution | proved |
| C56 | dot and norm2 over rounded numbers, all reduction trees | products of factors (1+d)^{+-1} | proved |
| C57 | matrix products over rounded numbers | from the expressions of C55 | proved |
| C58-C61 | the solvers over rounded numbers | backward error analysis of the recurrences of C55; Cholesky success and failure by quadratic forms | proved |
| C62 | the products over `binary p` | integers of at most 2^p are fixed by rounding | proved |
| C63, C64 | statements over a store of named COO and CSR objects (`Model/Store.lean`) | simulation by matrix-valued variables (`Spec/Store*.lean`) | proved |
| C65 | the products over `Fp F` | an operation with a finite result has finite operands | proved |
| C66 | the products over `Fp F` | error analysis of the expressions with an absolute term per rounding | proved |
| C67 | the solvers over `Fp F` | the recurrences of C55 hold always; finiteness and NaN traced through them | proved |
| C68 | the factorisations over `Fp F` | comparison of two runs up to the first row with a NaN | proved |
| C69 | GMRES over `Fp F` | the run as recurrences (`Spec/GmresEval.lean`); finiteness, NaN and zeros traced through them | proved |
| C70 | 2x2 inverse and norm2 over `Fp F` | the results as expressions; rounding beyond the range and below half the smallest number | proved |
| C71 | the direct solvers over `Fp F` | backward error analysis of the recurrences with an absolute term per product and quotient (`Spec/IeeeBack.lean`) | proved |
| C72 | statements over a store of named `DynVec` and `DynMat` objects (`Model/DenseStore.lean`) | simulation by variables that hold `Fin n → T` and `Matrix (Fin n) (Fin m) T` (`Spec/DenseStore.lean`) | proved |
| C73 | the solvers of C34-C43 with sizes that do not match | the kernels on longer buffers (frame conditions) and on shorter ones (one access that must fail) | proved |
| C74 | the accessors and size computations with operations modulo `2^64` (`Model/SizeT.lean`) | bounds on the address expressions for storages that exist | proved |
| C75 | the iterations of the marked loops as threads of single loads and stores (`Model/Threads.lean`) | a step of one iteration commutes with the run of another one as long as each stores to its own cells only | partial: false for CSR with x = y |
| C76 | the constructor and `solve` of incomplete LU and GMRES (`Model/Ilu.lean`, `Model/Gmres.lean`) on matrices that are not square | the induction of C40 with a column bound of its own; one access (the last diagonal element, the last column) that must fail, for any arithmetic | proved |
| C77 | `mul`, `add`, `sub` and the operators (`Model/Dense.lean`, `Model/Sparse.lean`) with arguments of any size | the loops of C12-C14 on the elements they reach; one access that must fail otherwise (`Proofs/ProdShapes.lean`) | proved |
| C78 | the stores of C64 and C72 with a table of the arrays their objects own, and variables that hold an array and a position (`Model/Views.lean`) | an invariant of the table (every object owns one array, no array has two owners, a given-up array never comes back) | proved |
| C79 | `norm2` (`Model/VecOps.lean`) and the Hermitian matrices (`Model/Struct.lean`) over the complex numbers | the sum of C06 without order; `|v|^2 = re(v*v) + 2 im(v)^2` | proved |
| C80 | the vector and matrix products over pairs of rounded numbers (`Spec/Cx.lean`) | one complex operation has a relative error of at most `cxu u`; composition of such errors (`Proofs/Cx.lean`) | proved |
| C81 | `cgs` (`Model/Cgs.lean`) as the recurrence `CgsRec` (`Spec/CgsEval.lean`) over rounded and IEEE numbers | loop invariants without laws of arithmetic (`Proofs/CgsRaw.lean`), then backward errors (`Proofs/FloatCgs.lean`) | proved |
| C82 | programs over vectors, matrices and solver objects (`Model/SolverStore.lean`) against Mathlib's `A⁻¹ *ᵥ b` (`Spec/SolverStore.lean`) | simulation: each solver object carries what its constructor did; the solver theorems of C34–C47 give each step | proved |
| C83 | constructors, `operator+=` and extensions as code over the objects of the program, with requests for memory that may be refused (`Model/Failure.lean`) | a relation between such code and the outcome with memory enough that sequencing and `noexcept` preserve (`Mirrors`, `Proofs/Failure.lean`) | proved |
| C84 | the tri-diagonal solver over `Fp F` | monotone rounding and differences that do not underflow for the pivots; an invariant of the forward sweep with weights, `abs(Q_i) + abs(P_i) w_(i+1) <= w_i` with roundings (`Proofs/IeeeTdmaOk.lean`); a maximum principle for the error | proved |
| C85 | `Chol.new` and the solvers over `Fp F` | the computed leading rows are an exact factor of a nearby form that is still positive (`Proofs/CholPrefix.lean`), so the next pivot is positive and everything is bounded by the diagonal (`Proofs/IeeeCholOk.lean`); the forward sweep is the next row of the factor of the matrix bordered by the right-hand side; the backward sweep by energy estimates (`Proofs/CholBack.lean`, `Proofs/IeeeCholSolve.lean`) | proved |
| C86 | `Ilu.new`, `Ilu.solve`, `Gmres` | one telescoping inequality over the columns of a row: eliminating column `k` moves weight to the right but never creates any, dropped entries only help (`Proofs/IluDom.lean`); the same with a factor `1+g` and the underflows carried along (`Proofs/IeeeIluOk.lean`); errors by the products `|L||U| w <= (2n+6)|a_ii| w_i` | proved |
| C87 | all kernels and direct solvers | the raw recurrences of C55 do not depend on any law of the operations, so the proofs of C56-C61 are repeated with one factor per operation and none shared (`Proofs/Noisy*.lean`); contraction keeps a history beside each number, so the choice can differ from place to place (`Spec/Noisy.lean`) | proved |
| C88 | kernels and direct solvers | a relation `rel c a a'` preserved by every operation, with the factors forming a group (`Spec/Scaling.lean`); the vector functions by running the two calls in step (`Proofs/SameOut.lean`), the solvers through the raw recurrences of C55 (`Proofs/ScalingRec.lean`); which factors commute with rounding to p bits: odd parts of powers grow (`C88_factors`); GMRES in `Props/ScalingGmres.lean`: basis vectors carry the sign of the factor, the residuals its size, everything else is equal in the two runs | proved |
| C89 | kernels and direct solvers | relations `0 <= a <= a'`, `a' <= a <= 0`, `a' <= a` kept by monotonically rounded operations (`Spec/Order.lean`, `Proofs/Order.lean`), finiteness passed backwards from the second result to all its intermediate ones; solvers through the raw recurrences of C55 (`Proofs/OrderRec.lean`); positive pivots from C84, C85 (`Props/OrderIeee.lean`) | proved |
| C90 | vector and dense matrix functions at integer types | `SInt b` with an element `over` that absorbs (`Spec/IntElem.lean`); `Gives v P z`: `v` is `z` if `P`, else `over`; generic formulas of C01, C14, C55 evaluated with it; unsigned: C12, C13, C01 at `ZMod (2^w)` | proved |
| C91 | solvers and residual computation | `InvBound n A K`: max|x| <= K max|A x| (`Spec/Forward.lean`); forward error from the backward error theorems C58-C61; certificates from C57, C66 | proved |
| C92 | user loop over mul, solve, axpy | `refineStep`, `refineTimes` (`Spec/Refine.lean`); `SolverFor`: backward error bound of the call; one-step contraction from C57 and the solver, then induction | proved |
| C93 | templates: vector ops, products, cgs, TDMA, Cholesky, back_sub, ILU | `Lim`, `LogRel` (`Spec/LogRel.lean`): one run describes a family of runs; loops keep this; `limRel`, `precRel`, `dualRel`, `dualVal`, `ivRel`; the solved system from C34, C35 - C39, C22 | proved |
| C94 | all templates | `Twin` (`Spec/Twin.lean`): relation kept by the operations; `SameOut`: both return related results or fail alike; `Proofs/Twin.lean` lifts to lists, memories, matrices; `Twin.hom` | proved |
| C95 | all templates with float, double | `Sf`, `Sf.Is` (`Spec/SoftFloat.lean`); `rnd_cell`: a gap rounds like its middle; `round_is`; `Sf.twin` and C94 | proved |
| C96 | `operator/` of vectors | `C96_value` gives the elements; exact reciprocals, error bound, overflow of the reciprocal; computed counterexamples through C95 | partial: the code multiplies by a rounded reciprocal |
| C97 | `Gmres::solve` | C51 says which vector is returned; relation between Krylov vectors (`krylov_relation`), rank of the dropped fill (`krylov_rank`), Richardson's iteration as a competitor (`richardson`) | proved |
| C98 | `Ilu<T, X&>`, `Gmres<T, X&>` | the state is the variable of the caller, an argument of every call (`newRef`, `solveRef`); `decomp` already returns the contents at `return false`; `run_spec` of GMRES is general in the matrix and the factors, used with both equal; `presid_map` bounds the distance to the solution of `F x = b` | proved |
| C99 | sums with `LALIB_USE_ACCELERATOR` | a second memory for the device and a table of the buffers that have a copy (`Dev`, `TwoMem`); a pointer without a copy cannot be dereferenced there; with copies the loop is that of the host on the copies, so `elem2_perm`, `elem2_order_oob` apply; `update to/from` are directives of the calling program. (`addCoreParallel` in `Model/VecOps.lean` covers the accelerator only for shared memory.) | proved |
| C100 | `Ilu` over the structured classes | the constructor reads through the mutable accessors, which throw off the structure, `solve` through the const ones: two `MatOps` per class. Failure: invariants of the loops over the rows up to the element that is not stored. Small sizes: `Rep`, `Ilu.new_spec`. Packed classes: any access is in range (`packIdx_lt`); on diagonal matrices `Rep` holds because no off-diagonal element is assigned; order 2 by evaluation | proved |
| C101 | text and class of `SizeMismatched` | texts are lists of characters, `std::to_string` by division by ten; a numeral contains no line feed, so the lines can be separated again (`split_line`); numerals are injective because their value can be read back; handlers follow the base classes | proved |
| C102 | calls of several threads | a call is a `Thread` (loads and stores); the run of a thread equals the existing model function (`thread_run`); a team of a parallel sum is a thread whose accesses follow a given schedule; ownership of objects makes the threads polite, then C75's commutation gives the sequential result, and locality (`run_local`) reduces it to each thread alone; the arrays of solvers are objects of the memory, so that threads can share a solver; `Ilu::solve` and `Gmres::solve` are computations that only load (`Look`), whose run equals the model of C42 and C51, followed by a copy; for LAPACK only the accesses up to the first store to the diagonals are modelled, the rest is arbitrary | proved |
| C103 | iteration with incomplete factors | `dom_dropped`: the weighted gap of a row of U is at least that of A plus the dropped entries plus L times the gaps before; forward and back substitution then bound the new error `L U e' = (L U - A) e`; M-matrices: signs of the factors, dropped entries not negative; stopping: the largest component of the new error is at most rho (itself + the change); rounding: the computed factors belong exactly to a matrix near A (`shifted`) which still has gaps, and the errors of the solution, the residual and the sum are one more right-hand side (`drop_error_plus`) | proved |
| C104 | GMRES with a dominating diagonal | the polynomial `(1 - P⁻¹ A)^m` is one of those over which GMRES minimises, and `P⁻¹ (P - A)` shrinks the weighted maximum (`drop_error` of C103); the error is `P⁻¹ (P - A)` of itself plus the residual | proved |
| C105 | the solvers agree | all of them return a solution of the same regular system, which has only one | proved |
| C106 | statements over a store of named `SizedVec` and `SizedMat` objects (`Model/SizedStore.lean`) | simulation by variables of fixed size (`Spec/SizedStore.lean`); an assignment copies the elements into the same array, so no statement changes the length or the identity of an array (`SzStmt.act_len`), and the invariant of C78 never breaks | proved |
| C107 | the products, the solvers, twice each, on related data | (1), (2) from the expressions of C55: an entry of the result is an expression in one row and one column; (3) congruent matrices (`Changed`), uniqueness of the solution; (4) evaluated counterexamples | proved |
| C108 | the constructors of the three factorisations, back substitution, `cgs`, each on a matrix and on a block of it | invariants of C55 for the two runs side by side (`decomp_leading`, `new_leading`): rows are computed from the rows above; uniqueness of `CgsRec` | proved |
| C109 | factor of modified Cholesky, Cholesky and incomplete LU; `cgs` | determinants of triangular factors; a form written as a sum of squares with signs (`neg_le`, `neg_ex`: Sylvester's law); spectral theorem of Mathlib; errors of C59 and C71 as a perturbation of the form | proved |
| C110 | the solvers, `identity`, products | every column solves its system (C34, C37, C39, C42, C97); uniqueness of solutions gives linearity, the left inverse and symmetry | proved |
| C111 | `mul`, `identity`, `DynCholeskyFactorization`, `DynTriCholeskyFactorization` in floating point | error bounds of C57, C66, C59, C71; a defect I - X A with row sums below 1 makes A regular; the computed factor gives a positive definite matrix near A - s I. `Certified` states the conclusion for (1) | proved |
| C112 | Cholesky, products, `cgs` | completing the square around a solution (C37, C39); the normal equations are positive definite exactly for independent columns (C36); the last vector of `cgs` is orthogonal to the given ones (C44). `energy`, `dist2` in Spec/Minimise.lean | proved |
| C113 | the solvers | exact solutions (C22, C34, C37, C39, C43) with the adjugate; the determinant of a rank-one change; the inequality of C112 decides positive definiteness. `Cramer`, `IntResult`, `rankOne` in Spec/Cramer.lean | proved |
| C114 | Cholesky and modified Cholesky | exact solutions (C37, C39), vector and matrix right-hand sides; block factorisation of the matrix; uniqueness. `ClosedSub`, `schur`, `schurRhs` in Spec/Schur.lean | proved |
| C115 | add and the in-place solvers in a loop of the caller | the program is `timeSteps` in Spec/Evolution.lean; induction over the steps with the exact solutions (C34, C37, C39) and the inverse positivity of M-matrices (C103) | proved |
| C116 | the program of C115 with rounded numbers | `Drifts` in Spec/Drift.lean says what one step with errors is; the backward errors of C59 and C60 give it, the bounds follow by induction with `InvBound` of C91; the order of computed vectors from C89, step by step | proved |
| C117 | solvers or products, dot, norm2 and division in a loop of the caller | the programs are `invStep`, `powStep` and `iterate` in Spec/Eigen.lean; Rayleigh quotients with the inequality of Cauchy and Schwarz for the form (C112), the programs from C05, C06, C08, C12, C34, C37, C39 | proved |
| C118 | a function of the caller, a solver and `sub` in a loop | the program is `chordStep` in Spec/Newton.lean, where `Predicts` and `EvalFor` say what F and the caller's function are; the backward errors of C59 and C60, the bounds by induction with `InvBound` of C91 | proved |
| C119 | the program of C118 with a solver that computes its matrix from x | `Tangent` and `NewtonFor` in Spec/NewtonFull.lean say what the matrix and the solver are; one step from the numbers of C118, the sequences of bounds by induction | proved |
| C120 | product, dot, axpy and scale in a loop of the caller | the program is `cgStep` in Spec/Cg.lean, `CgSeq` there says what the vectors are; orthogonality by induction, at most n orthogonal vectors, the program follows the vectors pass by pass with C01, C05, C12, C31 | proved |
| C121 | two factorisations with vector and matrix right-hand sides | `Feasible`, `RowsIndep` and `condMat` in Spec/Constrained.lean; the form of C Y is that of A at Y t, acceptance from C36, solutions from C37, energy as in C112; the caller's products C Y, C z and Y t are taken as exact data | proved |
| C122 | two tri-diagonal solves and axpy | `cyclicSolve`, `cyclic`, `cycU`, `cycV` in Spec/Cyclic.lean; the split of the periodic matrix, the change of a matrix by u v^T (solution, uniqueness, singular case), solves from C34 | proved |

Not modelled: `std::print`-style output helpers, the capacity of `std::vector`, I/O, the build
system.  Running out of memory (`std::bad_alloc`) is modelled in C83 only; the other properties assume memory enough.

### Instantiations

The model functions take any element type with the operations they use.  Some of the templates compile for fewer types
than that; a theorem about such a function says something about the code for the types below only.

* `dot` (`vec_ops_core.hpp:216-220`): the general `dot_core` returns a pointer as a number, so only the specialisations
  for `float` and `double` compile.
* `cross(DynVec, DynVec)` is declared twice with the same parameters and different results (`vec_ops.hpp:176`, `:201`):
  every call with two arguments is ambiguous.  `cross2` with two dynamic operands is the body at `:491-497`.
* Operators that pass the literal `1.0` or `-1.0` where the element type is deduced compile for `double` only: `A * x`
  (`mat_vec_ops.hpp:59-99`), `A * B` (`mat_mat_ops.hpp:183-195`), `-A` (`mat_ops.hpp:76-107`), the inverse (`mat.hpp:37, 44`) and what is built on them
  (GMRES, `operator-` of COO matrices).  `v / alpha` (`vec_ops.hpp:437-449`) divides `1.0` by `alpha` and so compiles
  for `double`, `long double` and `std::complex<double>`.
* `Zero<T>` and `One<T>` exist for floating-point types only (`ops_traits.hpp:12-36`; the versions for complex numbers do
  not compile), and with them the sparse, Hessenberg and upper triangular matrices and the unit matrices and vectors.
* The Cholesky kernels take `double*` (`cholesky_decomposition.hpp:26, 52, 75, 90`).
* `SpMat::operator+=` and `SpMat::_sort` (`sp_mat.hpp:257, 267`) have no definition.

## 5. The project's own tests

`Verif/Suite` replays 97 of the 104 tests in `/repo/test` on the model, with `double` as the executable IEEE numbers of C95
(integers in `Suite/Store.lean`).
Each example cites its test and is evaluated in the kernel. `python3 tools/check_suite.py` compares the citations (test name,
file, lines) with `/repo/test` and lists the tests without an example. It does not compare the numbers in the examples; those
were copied by hand.

These examples are not proofs about the library. They are evidence that the model computes what the authors expect the code to
compute. The tests themselves were not run: the numbers come from the model. Operations are rounded one by one, so a compiler
that contracts `a * b + c` may give other last digits.

Results are compared as numbers, so +0 and -0 count as equal. Where the test uses `ASSERT_DOUBLE_EQ` the result is exactly the
expected number, except in the four tests of the tridiagonal solver. There the model is up to four representable numbers off,
which is the most `ASSERT_DOUBLE_EQ` accepts. GMRES is compared with the tolerance of its tests.

Where several overloads share one definition of the model (say `SizedVec` and `DynVec` with `operator+`), their tests exercise
the same definition.

Not replayed:

| tests | reason |
|---|---|
| `LapackCholeskyDecompositionTest` | calls LAPACK, whose routines are specified here and not implemented |
| `CGSRandomTest` | random input |
| `SpLargeGmresTest` | too slow in the kernel (30 unknowns); evaluating it outside the kernel would trust the compiler |
