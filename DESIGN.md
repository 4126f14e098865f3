# Design of the formal model of the `tensor` library

Subject: the C++ library in `/repo` (juanjosegarciaripoll/tensor), read as text.
Prover: Lean 4.33.0, with single Mathlib modules for sums and algebra.

## 1. Layout

* `lean/Verif/Core/`  – outcome type, checked memory reads and writes, loops (no library code).
* `lean/Verif/Model/` – the model, one file per part of the library. Every definition cites the
  file and lines of `/repo` it models, and says where it is simplified.
* `lean/Verif/Spec/`  – small specifications which do not use the model's helpers.
* `lean/Verif/Lemmas/` – helper lemmas.
* `lean/Verif/Props/` – the property theorems, one file per group, each with an `example`
  showing a non trivial case which meets its hypotheses.

## 2. Outcomes

C++ functions are modelled as total functions into

    Res α = ok a | abort | ub

* `abort` is a failed `assert` (the library is "configured to have a high level of paranoia by
  default", doc/sec_intro.hdoc, i.e. NDEBUG not defined), or a call to `abort()`/`exit`.
* `ub` is undefined behaviour: read or write outside a buffer, use of an uninitialised value,
  access to released memory, division by zero.
* Loops which may not finish take fuel; divergence is "no fuel is enough".

## 3. Trusted base

* The Lean kernel, and the axioms `propext`, `Classical.choice`, `Quot.sound`.
* My reading of the C++ code as cited next to each definition.
* `index` (`long`) arithmetic is modelled with unbounded `Nat`/`Int`: total sizes below 2^63 are
  assumed. Exceptions: the random generators and data file integers, where word size matters
  (`BitVec`, explicit byte lists), and C77, which proves that the constructors, element access,
  reshaping and ranges compute the same in machine words under that assumption, C106, which does so for slices, C94, for
  contractions, C112 (permute, transpose, kron), C113 and C116 (sizes given to LAPACK and Arpack), C117 (FFTW), C118 (sparse
  matrices) and C121 (the counter of copies).
* Floating point: arithmetic operations are modelled over an arbitrary exact (commutative) ring,
  field, or star ring, without rounding, except in C54, C84-C86, C89, C91, C95, C102, C104, C105, C110, C119, C128, C129, C132, C133, C135-C137. These use Core/Float.lean:
  doubles with NaN, infinities and zeros with sign over the reals, any function which gives a nearest
  double (ties are left open), overflow to infinity, subnormal numbers, and IEEE rules for the special
  values. Assumed there: each operation of the source is rounded once (no fused multiply and add
  but in C95, C102, C119 and C128, no extended precision, no -ffast-math), a complex product is the usual formula unless both parts are
  NaN (then anything, if there are infinities or overflows: Core/CFloat.lean), integers below 2^53 convert exactly and others to a nearest
  double. Data movement operations are over an arbitrary type.
* External code is represented by its specification: BLAS `gemm`, `std::sort`, `std::copy`,
  `memcpy`, LAPACK, POSIX file calls, numpy (C79, C80), Matlab (C87, C88).
* Not modelled: the numerics of LAPACK, ARPACK (except the choice of Ritz values, C92, C93) and FFTW, console output, threads (except
  C96), allocation failure (except C103, C118 and C122).

## 4. Properties: what is modelled and how it is proved

| id | property | model and proof |
|----|----------|-----------------|
| C01 | Copies behave as independent values | Model `RefCount`: heap of buffers with reference counts and handles, all RefPointer/Vector operations as steps. Refinement proof to a map handle→list of values, by induction over operation lists. |
| C02 | No leak, double free or use after free in shared buffers | Same model; invariant (count = number of handles, live = referenced, freed once) by induction over operation lists; UB outcome for access to dead buffers. |
| C03 | Copying a dataset handle is safe | Model of the `shared_ptr` class; negation (double delete witness for every copy) and `_partial` for histories without copies. |
| C04 | Element access addresses exactly one element, in column-major order | Model of the 1..6 index accessors with the Horner formulas of the code; proof of equality with an independent column-major position, bijectivity, abort outside. |
| C05 | Writing one element changes that element only | As C04 with a checked write. |
| C06 | Reshaping never changes, loses or invents data | Model of the reshaping constructor and reshape/flatten. |
| C07 | Index range generator | Model of Indices::range with C++ truncated division; proved against a filter specification. |
| C08 | Concatenation of index lists | Model of concat's two copies and of the generator chain. |
| C09 | Boolean index algebra | Models of which/all_of/any_of/!/&&/||. |
| C10 | Comparisons agree elementwise, in both operand orders | Model of elementwise comparison and the inline mirrored versions; negation for the mirrored ones (equal elements), `_partial` for the rest. |
| C11 | Slicing reads exactly the cartesian selection | Model of the range objects as state machines with pop/reset/set_factor/set_limit; proof that popping enumerates the cartesian product in order. |
| C12 | Assigning to a slice changes the selected elements and nothing else | Model of the three assignments over the same iterators, on top of values (copy-on-write justified by C01). |
| C13 | Range bounds are checked | Model of set_limit checks; negation with witness, `_partial` for the cases that are checked. |
| C14 | Negative range limits count from the end | Negation: model of StepRange gives an empty selection for every negative stop. |
| C15 | Slicing always terminates, also on empty tensors | Negation: divergence of the iteration for all fuel on a zero-sized leading dimension; `_partial`: non-zero dimensions terminate. |
| C16 | Assigning a whole tensor to its own slice | Negation with witness in the in-place loop model; `_partial` without aliasing is C12. |
| C17 | Permuting two indices | Loop models of permute_12/23/24/13 and the dimension grouping of do_permute; proved against index exchange. |
| C18 | Transpose and adjoint | Corollaries of C17/C19 over exact rings with involution. |
| C19 | Tensor contraction | Model of do_fold with all gemm branches; gemm itself is a parameter-free specification of BLAS (trusted); proved equal to the contraction sum. |
| C20 | Conjugating contraction | Same model with the conjugation flag. |
| C21 | In-place contraction order | Model of do_foldin_into; negation for two vectors, theorem otherwise. |
| C22 | Matrix product algebra | Corollaries of C19 with sums over a commutative ring. |
| C23 | Contraction into an existing tensor | Model with named slots so that output may alias; negation with witness, `_partial` without aliasing. |
| C24 | Scaling along an index | Loop model of doscale. |
| C25 | Tracing two indices | Loop model of trace. |
| C26 | Extracting a diagonal over two indices of a tensor | Loop model of take_diag with the argument bug; negation and `_partial` when no indices follow. |
| C27 | Diagonal matrices round trip | Loop model of diag. |
| C28 | Kronecker products | Loop model of kron. |
| C29 | Changing one dimension | Block copy model. |
| C30 | Averaging over one index | Loop model incl. the out of bounds write; negation for the last index and theorem otherwise. |
| C31 | Squeezing | Model of the two passes; negation for all-ones and zero dims, theorem otherwise. |
| C32 | Elementwise arithmetic | Loop models. |
| C33 | Reductions | Loop models over exact fields. |
| C34 | Sorting | std::sort is a trusted parameter (returns an ordered permutation w.r.t. the comparator); wrapper logic modelled. |
| C35 | Dense-sparse round trip | Model of the compressed row arrays (`Sparse`), of the conversion constructor, full and operator(); proved against `IsCsr` (stored entries, zero elsewhere). |
| C36 | Sparse structure invariant | Language of sparse expressions with the evaluation by the library (a relation, because std::sort is) and the mathematical meaning; induction over expressions. |
| C37 | Sparse arithmetic agrees with dense arithmetic | Merge loop model. |
| C38 | Sparse Kronecker product agrees with dense | Loop model; negation for kron2_sum. |
| C39 | Sparse-dense products agree with dense products | Loop models; negation for tensor*sparse. |
| C40 | Sparse transpose and adjoint | Model through the triplet constructor. |
| C41 | Building sparse matrices from coordinates | Triplet constructor model; negation for sizes and duplicates; `_partial` otherwise. |
| C42 | Data files return what was written | Byte level codec model; round trip over record lists. |
| C43 | Reopening a data file appends | File system model; sessions. |
| C44 | A crash never destroys previously saved data (paranoid mode) | Crash-point model over file system operations; negation for one window and the strongest true statement as `_partial`. |
| C45 | The file lock gives exclusive access | Interleaving model of open/flock/unlink/close; negation with a schedule and `_partial`. |
| C46 | Integers stored in data files are recovered exactly | Model of the conversion through a 53-bit significand; int exact, size_t negation. |
| C47 | Truncated data files are detected | Stream model with eof; negation. |
| C48 | Jobs enumerate every combination of the variables once | Mixed radix model. |
| C49 | Job blocks partition the work | Arithmetic model of the block option. |
| C50 | Job options have defined defaults | Option parsing model with uninitialised fields as `none`; negation. |
| C51 | Job files define variables | Model of parse_file; negation. |
| C52 | String splitting | String splitting loop model. |
| C53 | Shifting frequencies is invertible | Model/Shift.lean on top of the model of slices: the two assignments between halves, with the parity of the length and the direction; `target n fwd i` is where the spec moves `i`. Shifts of several indices by induction over the flags. With a dimension 0 the ranges end at once and nothing is moved. |
| C54 | Random numbers are in range | Model/Rand.lean: functions of rand.h with bit vectors; the products of rand<unsigned>(upper) are rounded by any function to a nearest number with 53 digits. False for long, for float and for int limits whose difference overflows. Doubles between limits: Model/RandFloat.lean with the doubles of Core/Float.lean. Not modelled: float between limits, the configuration with 32 bits of rand.cc. |
| C55 | Random generator is the Mersenne twister and never leaves its state table | Model/Rand.lean: one model for rand64.cc and rand32.cc with the constants as parameters; accesses out of the table are `ub`. Spec/Rand.lean is the recurrence over an infinite sequence. In-place updates of the table by loop invariants; scrambling is injective bit by bit; the state is never zero because the recurrence can be inverted. |
| C56 | Block decomposition of matrices | Model/Blocks.lean: the loops of find_blocks with the two arrays of labels; `none` is the result "one block". Spec/Blocks.lean: connected components of the graph of rows and columns (unique up to order, `c56_unique`). Invariants of the loops over rows and columns: equal labels are connected, and the number of blocks is the number of labels. False of the tolerance for matrices with more rows than columns. |
| C57 | Conjugate gradient residual | Model/Cgs.lean: `solve` over any function from tensors to tensors, with the tensor operations of the model, over any field; a quotient by zero is `ub`. The result has the last `r` and the number of uses of the map, which the program does not return. Spec/Cgs.lean: what it means for the function to be a linear map. Exact arithmetic over the real or complex numbers: orthogonality of residuals over an inner product space (Props/CgsAbstract.lean), with Krylov spaces and the theorem of Cayley and Hamilton for several columns. Not modelled: rounding, maxiter out of the range of int. False of the limit of iterations. |
| C58 | Matrix exponential | Model/Expm.lean: `expm` over any field, with the absolute value, (int)floor(log2(x)) and `solve` as parameters; the logarithm of zero is `ub`. Spec/Expm.lean: Pade approximants by means of power series, the logarithm and what `solve` does (the solution, or a stop if the matrix is singular). The recurrence of the coefficients is shown to be the Pade approximant (Props/Pade.lean), with the remainder term by term (Props/PadeError.lean) and a bound for matrices by the norm of the rows (Props/ExpmMatrix.lean). Exact arithmetic. Not modelled: rounding, LAPACK, norms from 2^1023 on, where exp2(j) is infinite, orders from 2^31 on, where `2*order` overflows. False for zero matrices and the order 0. |
| C59 | Library flags store | Model/Flags.lean: the vector of values, the key is the position. All histories are lists of operations; the spec is the last value set. |
| C60 | Evenly spaced vectors | Loop model over any numbers with the operations of a field; proved over fields. Rounding: C86. |
| C61 | Row-sum norm of a matrix | Loop model; negation for matrices without columns. |
| C62 | Comparison of sparse matrices | Comparison of the arrays; negation for stored zeros, `_partial` without. |
| C63 | Opening a data file for reading does not change it | File system model; negation for two modes. |
| C64 | A stop of the program while appending keeps what was in the file | Every prefix of the steps of a session. |
| C65 | Power method | Model/Power.lean: the loop over any field with the functions over numbers as parameters; what is not a number is `ub`. Props/Power.lean relates it to the iterates of a linear map over `EuclideanSpace`; `UnitAlong x v` says that v is the unit vector along x. Rounding is not modelled. |
| C66 | Fourier transforms | Model/Fftw.lean: the computation of sizes and strides, the marks and the order of the dimensions; FFTW itself is a contract, what its manual says about plans with these sizes and strides (reads and writes are checked against the buffers). Spec/Dft.lean: `dft` is the nested sum with the numbers exp(± 2 π i j k / n), which are a parameter except for the theorems over ℂ. Rounding and the conversion of sizes to `int` are not modelled. |
| C67 | svd | Model/Svd.lean: the checks, the jobs, sizes and leading dimensions of the call to gesvd, and the tensors made of the arrays that it leaves. gesvd itself is a parameter, and what its manual says (`GesvdAnswer`, Spec/Svd.lean) a hypothesis: for admissible sizes it fills the arrays, and if info is zero they have the decomposition. The work space, the copy of A, the conversion of sizes to `blas::integer` and rounding are not modelled. |
| C68 | solve_with_svd | Model/Svd.lean on top of the models of svd, slices (C11), contractions (C20) and scale_inplace (C24). The result is described with the decomposition (`c68_formula_partial`) and without it: least squares with smallest norm, for all vectors. |
| C69 | eig | Model/Eig.lean: the checks, the call to geev and the loop that unpacks conjugate pairs. dgeev and zgeev are parameters, and what their manual says (`DgeevAnswer`, `ZgeevAnswer`, Spec/Eig.lean) a hypothesis. The spectrum is the characteristic polynomial as a product of linear factors. Work space, the conversion of sizes to `blas::integer`, the same tensor for R and L, and rounding are not modelled. |
| C70 | eig_sym | Model/Eig.lean, as C69; the manual says that only the upper triangle is read, `upper` in Spec/Eig.lean. |
| C71 | solve | Model/Eig.lean, as C69. In exact arithmetic gesv finds a zero pivot if and only if the matrix is singular. Messages are not modelled. |
| C72 | block_svd | Model/BlockSvd.lean: the choice of svd, the loop over the blocks (C56), the writing of each block through views (C12), and the reordering (C11, C34). gesvd is a parameter as in C67, and the hypothesis `Works` can be met (`exists_works`, from the existence of the decomposition, Lemmas/SvdExists.lean). `IsThin` (Spec/Svd.lean) says what the result is. Rounding is not modelled. |
| C73 | eigs, n <= 4 | Model/Arpack.lean: `eigs`, `small`, `keys`: the checks, the call of eig (C69), the selection with sort_indices (C34) and views (C11). dgeev and zgeev are parameters as in C69. `Chosen`, `InOrder` and `MayPrecede` (Spec/Eigs.lean) say what the selection is, without keys. Rounding is not modelled. |
| C74 | RArpack, CArpack | Model/Arpack.lean: the constructor, `update`, `get_data`, the functions that set parameters and those that give and take vectors, with the state and the arrays of the object. The library is a parameter: two functions of its own state, the arguments and the arrays (`Lib`). Spec/Arpack.lean says what its manual demands (`FirstCall`, `Answered`) and promises (`Obeys`, `Manual`), with the lines of the Fortran files. `Dialogue` is the sequence of calls. Lengths of the arrays of the object are part of the contract. `rand` is a parameter. |
| C75 | eigs, n > 4 | Model/Arpack.lean: `eigs`, `large`, `loop`, `finish`, `gemv`, `answerMatrix`. `Computes` says that the library gives what the manual of dseupd and zneupd says, in exact arithmetic (`ZneupdAnswer`, `DseupdAnswer`), when it does not report a failure. BLAS gemv is modelled by its definition. |
| C76 | eigs of functions and sparse matrices | Model/Arpack.lean: `doEigs`, `columnLoop`, `answerMap`, `eigsSparse` (with mmult of C39, views of C12, eig of C69). A function is a parameter `Tensor -> Res Tensor` without effects; `MapsBy` says that it multiplies by a matrix. For real functions and n <= 4 the complex eig is used; `LargestReal` (Spec/Arpack.lean) is what the manual of zgeev says of the normalization. |
| C77 | Machine words | Model/Machine.lean: the same functions as Model/Tensor.lean and Model/Indices.lean with every operation on `long` checked; what an overflow does is a parameter (undefined, or modulo 2^64), so that the positive theorems say that there is none. Proved equal to the unbounded models (refinement). Assumed: `long` and `size_t` have 64 bits, `new` throws for more than 2^63-1 bytes. |
| C78 | Datasets of jobs | Model/Dataset.lean: processes as state machines, one system call (or byte written) at a time, on a file system with links and inodes; events start, step and stop in any order. Invariant of all executions in which two processes with the same record do not run at the same time (they may one after the other, and after a stop), proved by induction over the events; the names are proved different through the decimal digits. Assumed: all permissions, no hard links, nobody else in the directory. |
| C79 | Files read in Python | Model/Python.lean: `SDF.load` and what it calls, byte by byte, with numpy's arrays as dimensions and a list of words in which a word may be undetermined (memory which readinto did not fill). The limit of numpy on dimensions and the depth of the Python stack are parameters. The theorem goes from the bytes of `dumpAll` (Model/Sdf.lean) to the dictionary. numpy itself is modelled after its manual: np.ndarray with a buffer, np.stack. Little endian machines only. |
| C80 | Datasets read in Python | `combine`, `loadDataset` (Model/Python.lean). The combined array is described by its elements (Spec/Python.lean: `Comb.value`), not by concatenation; end to end from the bytes that OutDataFile wrote. The order of the directory is the order of the list of files. load_sorted_dataset is in C108. |
| C81 | Iterative methods with sparse matrices | Model/SparseIter.lean on top of Model/Cgs.lean, Model/Power.lean and Model/Sparse.lean. The whole run is compared (result, counts, abort) with that of `full(s)`; `c81_cgs_converges` adds what C57 says. Matrices without columns are left out (`mmult` of a tensor without elements). |
| C82 | Real and imaginary parts | Model/Parts.lean: complex numbers are pairs, and the loops are those of `unop`, `binop`. Statements by elements (`elem`, `IsCsr`). No property of numbers is used except that `-(-x) = x` and, in sparse matrices, that the parts of zero are zero. |
| C83 | Text of tensors | Model/Text.lean: bytes of the text, with the text of an element as a parameter: not empty, without closing bracket, end of line, or comma with space (Spec/Text.lean: `Plain`; `plain_complex` for complex numbers, whose text has a comma). The decimal text of indices is that of Model/Dataset.lean. The state of the stream (width, flags, errors) is not modelled. |
| C84 | Results which are not numbers | Core/Float.lean; the models of Model/Reduce.lean, Model/Cgs.lean and the matrix norms with doubles as numbers. Complex doubles: Core/CFloat.lean, where a product whose two parts are NaN may be replaced (annex G of C) unless there are infinities or overflows. |
| C85 | Rounding errors of sums and norms | Lemmas/Float.lean has the error of one operation from the definition of a nearest double; induction over the loops for the bounds with (1 + 2^-53)^n, and underflow with 2^-1075 where products occur. Complex doubles by their parts (Props/CFloat.lean). |
| C86 | Evenly spaced vectors of doubles | Model/Linspace.lean with the doubles of Core/Float.lean. Proved for ends up to 2^1022 and less than 2^53 points: first element, order, error. The two witnesses for the end are computed from the definition of a nearest double, so that they hold whatever is done with ties. |
| C87 | Files read in Matlab | Model/Matlab.lean: sdf_load, sdf_load_record and what they call, byte by byte; arrays of Matlab by their size and elements. Matlab itself is modelled after its manual (fread, feof, reshape, complex, cat, setfield, rmfield); the names which setfield accepts are a parameter. The theorem goes from the bytes of `dumpAll` (Model/Sdf.lean) to the struct, by an invariant of the loop: each field is the variables so far with its name. Files of little endian machines. |
| C88 | Datasets read in Matlab | `loadDataset` (Model/Matlab.lean) with the global variables as a state; `dir` and the contents of files are functions. That a name stays avoided is an invariant for arbitrary files. sdf_sort_1d and sdf_sort_2d are not modelled. |
| C89 | Elapsed times | Model/TicToc.lean over `Fl` (Core/Float.lean): the clock gives any two integers, the constant 1e-6 is a nearest double, the static variable is the state of a sequence of calls. Configuration with gettimeofday; one thread; no contraction of 1e-6*x+y to one operation. |
| C90 | Directories | Model/IsDir.lean: stat() as a function from names to st_mode, numbers of Linux; mkdir() after its manual, with what the system permits as a parameter. |
| C91 | NaN in comparisons and sorting | Model/FloatCompare.lean over `Fl`; the specification (Spec/FloatCompare.lean) orders doubles as extended real numbers without NaN. std::sort is its specification, with undefined behaviour if the comparison is not a strict weak ordering on the elements. |
| C92 | The choice in Arpack | Model/ArpackSort.lean: dsortr, zsortc and dsortc (shell sort, with the gaps of the code), dsgets, zngets and dngets, in exact arithmetic; arrays which are permuted together are one list. `Pref` and `PrefC` say what is asked for. which = BE, which the library does not use, is left out; dngets is compiled and not called by the library, which treats all real matrices as symmetric. |
| C93 | The end of the iteration | Model/ArpackSort.lean: `saup2` and `naup2` are the part of an iteration of dsaup2 and znaup2 from the choice (C92) to the decision to stop, with the scaling of the estimates, in exact arithmetic. The eigenvalues of the small matrix and their estimates are the input. What the returned values are is stated with `Best` and `NoTies`, for lists; eps23 is any positive number and the magnitude any homogeneous function. |
| C94 | Products in machine words | Model/FoldMachine.lean: fold, foldc, foldin and mmult as in Model/Fold.lean, with the products of dimensions and the offsets in 64 bits as in Model/Machine.lean, and the arguments of gemm converted to integers of w bits. gemm with a negative argument is `ub`. The theorems equate these functions with those of Model/Fold.lean, to which C19 to C22 apply. Dimensions which are zero are left out. |
| C95 | Contractions of doubles | Model/GemmFloat.lean: the contraction of Model/Fold.lean with polynomials in place of numbers tells which products make up each element; `Sums` is what a library may compute for them: products and sums in any order, fused or not, products with zero left out or not, with opposite signs, and with any sign of a result zero. Algorithms which form other products (Strassen) are not included; alpha = 1 and beta = 0 have no effect. `c95_exists`: there is a result for all arguments. |
| C96 | Threads | Model/Threads.lean: the operations of RefPointer divided into accesses to memory, which threads interleave in any order. Sequentially consistent; the data of an object are cloned in one step; allocation gives each thread addresses of its own. `Settled`, `execAll`: Spec/Threads.lean. |
| C97 | Lifetime of ranges and views | Model/ViewHeap.lean: the ranges of Model/View.lean as objects in memory, deleted by the destructors of the views. Spec/ViewHeap.lean gives the meaning of the statements without memory, by the functions of Model/View.lean, and says which programs are allowed: each range is used once, variables exist, a mutable view is used while its tensor keeps its dimensions. |
| C98 | Contractions of several tensors | Laws relating calls of fold, foldin, mmult, scale, diag, eye, kron, transpose and trace, from the theorems on each of them (C19, C21, C22, C24, C27, C28), as equalities of results which include the cases where the program stops. |
| C99 | References and iterators kept in variables | Addresses of elements (`&t.at(i)`, `&t[i]`, `begin()+i`) added to the heap of C01; reading and writing through them. The specification has names of elements instead of addresses, and rules for how long a name is good. Left out: `end()`, and pointers of the caller into an array given to a vector. |
| C100 | Vectors over arrays of the caller | The heap of C01 with statements of the caller which write, read and release arrays. The specification has values and views, the views in groups, one for each use of `Vector(n, data)`; no addresses and no reference counts. Left out: vectors which begin in the middle of an array. |
| C101 | Memory of the iterative solvers | Map objects made with `new` at each call and the copies of vectors which they have as members, over the heap of C01; which solvers delete them. A call is a statement at the beginning and one at the end, with any statements in between. Left out: local variables of the solvers. |
| C102 | Contractions of complex doubles | Model/GemmCFloat.lean: as C95, with two sums of products of parts for each element. Results are not determined if a part of an argument or of a sum is not finite: zgemm multiplies with the complex number 1 + 0 i, which turns infinities into NaN in the other part. Products with three multiplications (3M) and Strassen are not included. A product of a real and a complex tensor is that of complex tensors (C20). foldc is that of the conjugate of the first tensor, by C20 for formal sums. |
| C103 | Vectors when memory is exhausted | Model/AllocFail.lean: the heap of Model/RefCount.lean, where each operation may fail in its first or second `new`. In `new pointer(new elt_t[n], n)` the data is taken to be allocated first; before C++17 the order is open, and in the other order a failure of either leaves the state unchanged, which is the case `data` of the model. Programs which adapt to exceptions are covered, because all histories are. Tensors, whose dimensions are a vector of their own, are C122. |
| C104 | Rounding in the product of a sparse matrix and a tensor | The loops of Model/Sparse.lean (C39) with the numbers of Core/Float.lean and Core/CFloat.lean. Fused operations: C119. Not modelled: sums near overflow (excluded by `Small`). |
| C105 | Arithmetic of sparse matrices of doubles | Model/SparseFl.lean: the loops of Model/Sparse.lean with the comparison `v == 0` of the numbers of Core/Float.lean and Core/CFloat.lean (true for both zeros, false for NaN). Operations of one real and one complex matrix convert the numbers first (binopTR, binopRT) while full tensors use the operators of std::complex with a double (plusTR, minusRT, ...). The division of complex numbers is a parameter. |
| C106 | Slices in machine words | Model/ViewMachine.lean: the functions of Model/View.lean with every operation on `index` checked as in Model/Machine.lean, with the allocation of the result. The theorems equate them with Model/View.lean, to which C11 and C12 apply. Empty dimensions are left out, and so is assignment of a tensor to a view of itself. |
| C107 | Sorting data sets in Matlab | Model/MatlabSort.lean: both functions, with sortrows and sort as stable sorts, sizes of arrays, and all errors. The elements by which a record is sorted are compared by a `key` in a linear order, and sdf_sort_2d computes with keys in an ordered field (no rounding). Spec/MatlabSort.lean says which element is where. |
| C108 | Variables of jobs in data sets | Model/JobsSave.lean: Job::dump_variables, and load_sorted_dataset with a stable sort (the keys are numbers without NaN; keys which are complex or arrays are not modelled and `ub`). The theorems join the models of jobs (C48), data files (C42) and Python (C79, C80). |
| C109 | Random tensors and sparse matrices | Model/Random.lean: RTensor::random, CTensor::random and RSparse::random over the generator of 64 bits (C54, C55), with the division in doubles. `rand<cdouble>` calls the generator in two arguments of one function; the order, which C++ does not specify, is a parameter of the model. CSparse::random is not modelled. |
| C110 | round() of tensors | Model/Round.lean: the function of the C library by its description in the C standard, its application to tensors and complex numbers, and the function which replaces it for old compilers, with floating point sums. |
| C111 | Functions with parameters | Model/Closure.lean: programs over variables, closures with members, their lifetimes, and maps with a reference to a closure. Theorems about all programs before, between and after the statements which make, map and call a closure. |
| C112 | Index arithmetic and pointers of permute, transpose, adjoint and kron | Model/PermuteMachine.lean: the functions of Model/Permute.lean and kron with checked products and checked movements of pointers; what a pointer beyond the end does is a parameter. Equality with the models for unbounded numbers, and an exact condition for undefined behaviour. |
| C113 | Sizes and workspaces given to LAPACK | Model/LapackMachine.lean: the calls with sizes converted to w bits, the answer of the workspace query as a parameter, and the conditions of the manual on every argument and array (a bad argument stops the program, a short array is undefined). Equality with the models for unbounded numbers (C67, C69, C70, C71), and what happens otherwise. |
| C114 | +=, -=, *=, /= and shared data | Model/Inplace.lean: the operators on the memory of C01 (blocks with counted references), the number as an address that is read in each step, the copy that `*=` and `/=` with a number return. Simulation of a specification with independent values (Spec/Inplace.lean) for programs, exact results where it fails. |
| C115 | Seeds of the random numbers | Model/Seed.lean: rand_reseed with the environment, /dev/urandom and the clock as arguments, `atoi`, the numbers thrown away, and the branch for Windows. The recurrence of C55 run backwards: 312 outputs determine all the earlier words but for 31 bits of one; closed form of init_by_array for one word. |
| C116 | Sizes and arrays given to Arpack | Model/ArpackMachine.lean: the constructor, get_data and eigs with sizes of type blas::integer of `w` bits, and the int ldz. Equal to Model/Arpack.lean if the sizes fit (`Fits`), undefined otherwise; the objects that are made satisfy `FirstCall` of C74. |
| C117 | Lengths and strides given to FFTW | Model/FftwMachine.lean: the three do_fftw with lengths and strides converted to integers of `w` bits, and the products of the code: in one loop with the int, in the other with the index. Equal to Model/Fftw.lean if the lengths fit, and the strides of indices with two or more values. |
| C118 | Sizes of sparse matrices | Model/SparseMachine.lean: kron, full and mmult with all products of sizes and all columns and positions computed in machine words, and the memory which is asked for. Equal to Model/Sparse.lean if the sizes of the result are numbers of the machine and there is memory; stops if there is no memory. |
| C119 | Fused operations | Model/Fused.lean: the loops of Model/Reduce.lean and Model/Sparse.lean with terms in place of numbers; `Eval` and `CEval` say what a compiler may compute for a term, with each product fused with the sum or not. These are all loops of the library in which products are added up. Not modelled: -ffast-math, compilers which reorder sums, x87 with more digits. |
| C120 | Data files between machines | Model/Machines.lean: writing and reading with the sizes of int, long and size_t, the order of bytes and the memory of the machine as parameters; the length which is read as `size_t`, converted to `index` for the constructor and used in full for the number of bytes. Model/DataFile.lean is the case of 64-bit Linux (`c120_linux`). Not modelled: the branches for the macro `aix`, of which that for reading does not compile (`min` is not declared). |
| C121 | Counters of references in machine integers | Model/Counter.lean: Model/RefCount.lean with a counter of type int. The specification is that of C01; the invariant of C02 says that the counter is the number of vectors with the same data. |
| C122 | Tensors when memory is exhausted | Model/TensorFail.lean: programs with variables of types Tensor, Indices and Vector, whose operations are sequences of those of Model/AllocFail.lean on `data_` and `dims_`, with the destructors that run when an exception leaves a constructor or function. Indices and elements are in one heap. Loops over all elements are one instruction. Specification (Spec/TensorFail.lean): values which share nothing. Proofs go by weakest preconditions of these sequences over the values of the vectors (Lemmas/TensorFail.lean). Not modelled: exceptions in other functions (contractions, slices, sparse matrices). |
| C123 | Laws between matrix functions | Props/Laws.lean and Props/LawsNorm.lean, about the models of C18-C20, C22, C24, C25, C27, C28, C33 and C61. Elements are of a commutative semiring, for norms of a normed field (real or complex numbers). mmult stops the program if there is nothing to sum (C22), and matrix_norminf reads beyond a matrix with rows and without columns (C61), so these dimensions are not zero in the theorems that need it. |
| C124 | Laws of slices | Props/LawsView.lean, about the models of C11, C12, C17, C18, C22 and C32. `Fits`: the ranges are within the tensor, and no dimension is zero (C15 has the others). `Gives` and `Becomes` say that a slice or an assignment ends with the given result. `Disjoint` compares positions in memory, so that one range over the whole tensor can be compared with one range for each dimension. Equations with conjugation or products need the elements of the types of C18 and C22. |
| C125 | Laws of sparse matrices | Props/LawsSparse.lean, about the models of C35-C40. Equality as stored arrays needs operations which do not store zeros (+, -, transpose, adjoint); for kron the full matrices are compared, because products of elements which are not zero may be zero. |
| C126 | Operators and functions of all types of operands | Model/Operators.lean: a table with the function or template that C++ selects for each combination of types, with the operation of std::complex which it applies to the elements, over the loops of C32 and C37. Spec/Operators.lean: values of operands as Mathlib's complex numbers. Exact arithmetic; quotients where the divisor is not zero, functions where they have a value. Numbers in `x op= number` are not elements of x (C32, C114). |
| C127 | Laws of Fourier transforms | Props/LawsFftw.lean, over the models of C66, C53 and C32; Spec/Dft.lean: `opposite`, `cyclic` and `phase` are recursions over the indices, with the sums and the roots of unity written out. Exact arithmetic; FFTW is the contract of C66. |
| C128 | Finite results are accurate | Lemmas/FiniteResults.lean and Props/FiniteResults.lean, over the models of C84, C95 and C119. Each operation of IEEE 754 is inverted: a finite result of +, *, / or a fused operation has finite operands and no overflow. For complex products, `NoFinite` says that what compilers do after NaN never gives a finite number; it is proved for compilers with and without annex G of ISO C. Contractions of complex tensors are not included: the model of zgemm (C102) says nothing of operands which are not finite. |
| C129 | Rounding errors of traces, means along an index and row sums | Lemmas/SumOrder.lean: which numbers are added and in which order, for any type with 0 and +. Spec/SumFloat.lean: `IsSum` and `IsMean`, the bounds of C85 and C128 for one list. Not included: means of complex tensors along an index, as division by complex numbers is not modelled in floating point; `norminf` of complex matrices (`abs` is hypot of the C library). |
| C130 | Lists of indices as tensors | Model/IndexTensor.lean: index_to_tensor of indices/to_tensor.cc, with the conversion of integers of Core/Float.lean. |
| C131 | Random numbers are those of std::mt19937_64 and std::mt19937 | Spec/MtEngine.lean is the text of [rand.eng.mers] of ISO C++ in natural numbers, with the parameters of [rand.predef]; Props/MtEngine.lean relates it to the bit vectors of the model of C55. The constants of init_by_array are not part of the standard. |
| C132 | Power method in doubles | Model/PowerFl.lean is the program of Model/Power.lean (C65) with the operations of IEEE 754; `why` and `last` of the result are not visible to the program. Without fused multiplications (C119); the map is any function, whose error is `δ`. Complex numbers are not modelled. |
| C133 | Conjugate gradients in doubles | Model/CgsFl.lean is the program of Model/Cgs.lean (C57) with the operations of IEEE 754; all but `x` in the result is not visible to the program. `Multiplies` has the error of the product with the matrix as a parameter, without underflow. Without fused multiplications (C119); complex numbers are not modelled. |
| C134 | Laws of tensors of any rank | Props/TensorLaws.lean, TraceLaws.lean, PairLaws.lean and TraceFold.lean (traces of contractions; indices counted from the start, contracted indices of equal dimensions other than zero), equations between the models of C17, C19, C24, C25 and C33, so the outcomes `abort` are compared too. Exact arithmetic; in doubles the laws about sums have rounding errors (C85, C127). |
| C135 | Lists of numbers of any types | Model/Gen.lean: numbers with their types (`bool`, `int`, `long`, `unsigned long`, `double`, `std::complex<double>`) and the conversions of ISO C++; StaticVector is that of C08. Spec/Gen.lean: the complex number which is meant. `float`, `char` and the other types of integers are not modelled. |
| C136 | Integers | Model/GemmFloat.lean, GemmCFloat.lean (what any BLAS may compute), Fused.lean (compilers), Reduce.lean, Arith.lean. Only values are compared: the sign of zero is not determined. For complex tensors: fold, foldc, foldin, mmult, scprod, sum and trace; sparse products of complex tensors and the laws for several products are not stated. |
| C137 | Exponentials in doubles | Model/ExpmFl.lean: `expm` with doubles, with the conversion to int, exp2 and the unsigned arithmetic of the coefficients; log2 (`IsLog2`), the products by BLAS (`Mmult`, which may differ from call to call) and `solve` are parameters. Props/ExpmFl.lean: how the matrix is scaled, the matrices for which the behaviour is not defined, and the result for norms of 2^1023 or more. That a log2 as demanded exists is `isLog2_round`. Props/ExpmErr.lean: rounding errors of the coefficients, powers and sums (`c137_pade_partial`), and the distance of the result to the exponential for norms less than 1/2, given the residual of `solve` (`c137_error_partial`), also with the squares for norms up to 693 (`c137_squares_partial`). Not proved: the error for larger norms, and what residual LAPACK leaves. |
| C138 | Laws of arithmetic for tensors of doubles | Props/FloatLaws.lean: every law is stated for the results of the operators, element by element to the last bit (NaN has no sign and payload in the model). -(a*b) = (-a)*b has the premise that rounding does not depend on the sign, which the default of IEEE 754 satisfies. scprod and norm2 as written, without fused operations. Complex tensors (Props/CFloatLaws.lean): sums, products and norms; the results for infinities are those of annex G or NaN, or any which do not depend on the order of the factors. |
| C139 | Real tensors as complex ones | Props/Convert.lean, Props/Convert2.lean: the models of C17, C18, C19, C21, C24, C25, C28, C32 and C33, which are the same for real and complex numbers, as they are in the code up to the element type; scprod with the conjugation of each type. A conversion is any map which respects the operations used (`Complex.ofRealHom`, `starRingEnd ℂ`, for sums also the parts). Exact arithmetic; foldin of two vectors, which is undefined (C21), kron of tensors without indices and sparse matrices are not stated. Props/ConvertFl.lean: scprod, sum, + and * with the doubles of Core/Float.lean and the complex products of Core/CFloat.lean, for any compiler (`Recover` is not reached). |

## 5. Disagreements between code and properties

Each row is a property which does not hold for the code as written. The negation is proved with a
concrete or general witness, and the part which does hold is proved as a `_partial` theorem.

| id | disagreement | theorem |
|----|--------------|---------|
| C03 | Copying a `shared_ptr` copies the counter, both copies delete the object. | `c03_negation_copy_deletes_twice`, `c03_negation_copy_dangles` |
| C10 | `number < v` is computed as `v >= number`, and likewise for `<=`, `>`, `>=`: wrong wherever an element equals the number. | `c10_negation_number_first` |
| C13 | A range given by a list of indices accepts an index equal to the dimension; `range(i)` accepts negative numbers and reads before the tensor. | `c13_*` |
| C14 | A negative end of a range is never counted from the end of the dimension. | `c14_negation_negative_end` |
| C15 | Slices of tensors with zero dimensions do not terminate, or divide by zero. | `c15_negation_*` |
| C16 | `t.at(r) = t` reads elements which have been overwritten. | `c16_negation_self_assignment` |
| C21 | `foldin` of two vectors writes to an array of zero dimensions. (Also, its documentation announces a complex conjugation which does not take place.) | `c21_negation_vectors` |
| C23 | `fold_into(A, A, ..)` discards the elements of A before it reads them. | `c23_negation_alias` |
| C26 | `take_diag` passes the product of the dimensions after the second position where the second dimension belongs: wrong elements, or reads out of bounds. Equal positions are not detected. | `c26_take_diag_wrong`, `c26_take_diag_out_of_bounds`, `c26_take_diag_same_position` |
| C27 | `take_diag(diag(v,w),w)` stops the program for an empty vector. | `c27_empty` |
| C28 | The dense `kron2_sum(A,B)` computes `kron2(B,1)+kron2(1,A)`: its arguments are exchanged. | `c28_kron2_sum_wrong` |
| C30 | `mean(t,k)` for the last index of a tensor with two or more writes past the end of an array of dimensions. | `c30_mean_last` |
| C31 | `squeeze` stops the program if all dimensions are 1, and uses uninitialised dimensions if one is 0. | `c31_ones`, `c31_zero` |
| C32 | `t /= t[0]` keeps a reference to an element which it replaces (`divided_constant`, functional.h). | `c32_negation_own_element` |
| C33 | `scprod(a,b)` does not compare the sizes: a longer first argument makes it read beyond the end of the second one. The equality is a stated hypothesis of `c33_scprod`. | `c33_scprod_out_of_bounds` |
| C34 | `sort(Indices)` compares the elements as floating point numbers (`std::less<double>`), so that large integers may remain unordered. | `c34_sort_large` |
| C38 | The sparse `kron2_sum` uses `length()`, the number of stored elements, where the number of rows belongs; it stops the program for almost all matrices. | `c38_kron2_sum_wrong` |
| C39 | `mmult(Tensor, Sparse)` always stops the program, because it calls `dimension(-1)`, which is rejected. | `c39_tensor_sparse_aborts` |
| C41 | Without sizes, the matrix from coordinates has max(rows) instead of max(rows)+1 rows, and inconsistent arrays. Repeated coordinates are stored twice, or leave memory uninitialised in the first column (`last_col` is never updated). | `c41_no_sizes`, `c41_duplicate`, `c41_duplicate_first` |
| C62 | Products with zero keep the elements as stored zeros, and comparisons take them into account. | `c62_stored_zero` |
| C61 | `matrix_norminf` of a matrix with rows and without columns reads an element that does not exist. | `c61_norminf_no_columns` |
| C44 | `rename_file` deletes the destination before `rename`: a stop between both leaves no file under the name (the new contents are in the `.tmp` file, which the next paranoid session deletes first). | `c44_lost` |
| C45 | `giveup_lock` deletes the lock file; a process which had opened it before locks a file without a name, while another one locks the new file with the name. | `c45_two_holders`, `c45_two_processes` |
| C46 | `size_t` values are stored as double precision numbers: 2^53+1 becomes 2^53, and 2^64-1 is read back with an undefined conversion. | `c46_not_exact`, `c46_undefined` |
| C47 | A short read only sets the fail bit, and only `bad()` is looked at: elements which are not in the file are returned as whatever was in memory, and at the end of the file uninitialised names, tags and lengths are used. | `c47_made_up`, `c47_made_up_complex`, `c47_end_of_file`, `c47_after_short_read`, `c47_no_file` |
| C48 | A variable with 0 steps (which a comment in parse_line allows) makes the constructor of Job divide by zero. | `c48_zero_steps` |
| C50 | `--job-blocks` without `--this-job` uses `current_job` without a value (a comment says it is 0); `--first-job` without `--last-job` leaves `last_job_` without a value, which `to_do` reads. `--this-job` before `--first-job` stops the program but after it is ignored. | `c50_negation_blocks`, `c50_negation_first`, `c50_order` |
| C51 | `parse_file` never reads from the file: `--job` is ignored. | `c51_negation_ignored`, `c51_negation_no_variables` |
| C54 | `rand<long>(upper)` converts to `long` before the remainder: after `set_seed(2)`, `rand<long>(10)` is -8. `rand<float>()` is 1 after `set_seed(3138459)`, which its documentation excludes. `rand<int>(lower,upper)` overflows if the limits are far apart. `rand<double>(upper)` can be `upper` for subnormal limits, `rand<double>(lower, upper)` can be `upper`, and is infinite or NaN if the difference overflows. | `c54_long_negative`, `c54_float_one`, `c54_int_overflow`, `c54_negation_double_to`, `c54_negation_double_in`, `c54_negation_double_overflow` |
| C56 | `find_blocks(A,...,tol)` forgets `tol` when A has more rows than columns: it calls itself for the transpose with the default tolerance. | `c56_tall`, `c56_tall_tolerance` |
| C57 | `cgs` with `maxiter` = k makes up to k + 1 iterations. | `c57_more_iterations` |
| C58 | `expm` of a zero matrix converts the logarithm of zero, minus infinity, to an integer. | `c58_zero` |
| C58 | `expm` with order 0 is the same as with order 1. | `c58_order_zero`, `c58_order_zero_wrong` |
| C63 | `InDataFile(name, SDF_OVERWRITE)` deletes the file, and `InDataFile(name, SDF_PARANOID)` reads a `.tmp` file which it has just deleted. | `c63_overwrite_deletes`, `c63_paranoid_not_read` |
| C65 | The power method makes iter + 1 iterations. | `c65_more_iterations` |
| C65 | For complex matrices the power method returns the complex conjugate of the eigenvalue. | `c65_eigenvector_partial`, `c65_conjugated` |
| C65 | The power method may return a value which is not an eigenvalue, for any number of iterations and without notice. | `c65_no_eigenvector` |
| C66 | A tensor without indices, or a transform along an index of dimension zero, is not refused: FFTW reads an element that does not exist, or a null plan is executed. | `c66_undefined` |
| C67 | svd does not look at info: if gesvd fails, what is in the arrays is returned as if it were the decomposition. | `c67_failure_ignored`, `c67_negation_failure` |
| C68 | If no singular value is above the tolerance, as for the zero matrix, whose pseudoinverse is zero, the program stops with a failed assertion (contraction over an index of dimension zero). | `c68_small`, `c68_negation_zero` |
| C69 | The documentation says L A = D L. What is computed is Lᴴ A = D Lᴴ; for {0,1;0,0} the former is false whatever geev computes. A failure of geev is ignored. | `c69_negation_left`, `c69_failure_ignored` |
| C70 | A matrix which is not Hermitian is not refused: the lower triangle is ignored. A failure is ignored. | `c70_upper_partial`, `c70_negation_not_hermitian`, `c70_failure_ignored` |
| C71 | The rank of A is not checked: for a tensor with dimensions n, n, ... the equations with the first n * n elements are solved. For n = 0 the size of B is divided by zero. | `c71_negation_rank`, `c71_undefined` |
| C72 | For a square matrix with blocks which are not square, the program stops if `economic` is false. For matrices with singular values which are zero, columns of U and rows of VT can be zero, so that they are not those of unitary matrices. | `c72_negation_blocks`, `c72_negation_mixed`, `c72_negation_zero` |
| C73 | The vectors are those on the left, because eig(A, R, L) is called with L: they are eigenvectors only of normal matrices. Of the complex eigenvalues of real matrices only the real part is given, with `converged` true. A type out of the enumeration is undefined behaviour, not refused. | `c73_negation_left`, `c73_negation_real`, `c73_undefined_type` |
| C74 | The type 6 is not refused: it reads out of the table of names. nev = n - 1 is admitted for complex numbers and the manual of znaupd does not admit it. set_maxiter(0) is admitted, and the library then refuses the call. error_message() without an error returns a pointer which was never set. | `c74_negation_type`, `c74_negation_nev`, `c74_negation_maxiter`, `c74_negation_message` |
| C75 | Real matrices are treated as symmetric, while the documentation of eigs is for nonsymmetric ones: for a matrix without real eigenvalues numbers are returned and `converged` is true, with a library that does what its manual says. The real eigenvalues are in increasing order, not in that of the type as for n <= 4. A tensor of zeros given for the vectors stops the program. All the eigenvalues (k = n) can be asked for when n <= 4 and not when n > 4. | `c75_negation_real`, `c75_negation_order`, `c75_negation_zeros`, `c75_refused` |
| C76 | A sparse matrix which is not square is not refused when it has more than four columns. With more rows, those after the n-th are ignored; with fewer, elements out of an array are read. | `c76_negation_tall`, `c76_negation_wide` |
| C77 | Sizes are products which are not checked: 2^32 x 2^32 gives a tensor without memory and with valid indices; 2^40 x 2^40 x 0 overflows but 0 x 2^40 x 2^40 does not; Tensor(-2,-3) has six elements, and the list of the same dimensions none; a complex vector with the least length has 2^63 elements and no memory; a range overflows after its last element; a sparse matrix may be given more elements than rows x columns. | `c77_negation_*` |
| C78 | Two processes with the same job may leave an empty record under its name, or delete a complete one, because the record is checked when the dataset is opened and replaced when it is closed, and both use the same temporary file. Job numbers are converted to int: numbers which differ by 2^32 have the same record. | `c78_negation_incomplete`, `c78_negation_lost`, `c78_negation_names` |
| C79 | Not read as written: a variable without a name (the default name of dump is empty) ends the reading, and what follows is lost; vectors of tensors are read as empty lists; of several variables with the same name only the last is left; names which are not UTF-8, names which begin with "sdf", tensors without indices and files from machines with the other order of bytes raise an exception or are misread; a file without variables gives a result which depends on uninitialized memory, and a file that is cut within a tensor gives an array with undetermined elements, without notice. | `c79_negation_no_name`, `c79_negation_vector`, `c79_negation_same_name`, `c79_negation_utf8`, `c79_negation_sdf`, `c79_negation_rank`, `c79_negation_order`, `c79_negation_no_variables`, `c79_negation_truncated`, `c79_negation_header` |
| C80 | If the first file of the directory is empty, the dataset is an empty dictionary without notice; variables which the first file does not have are left out. | `c80_negation_unfinished`, `c80_names`, `c80_negation_vector` |
| C81 | eig_power_left of a sparse matrix never gives a result: it uses mmult(Tensor, Sparse), which always stops the program (C39). | `c81_negation_power_left` |
| C82 | to_complex(r, i) does not compare dimensions: if i has fewer elements it reads beyond its end; if it has more, or others, there is no error and the rest is lost. imag(to_complex(s)) of a sparse matrix stores zeros, so that it is not all_equal to imag(s). | `c82_negation_short`, `c82_negation_dimensions`, `c82_negation_sparse` |
| C83 | matrix_form writes "]", without the opening bracket, for matrices without rows and for the empty vector, the same text for a vector and for the matrix with one row, nothing for tensors without indices, and stops the program for those with more than two. | `c83_negation_no_rows`, `c83_negation_vector`, `c83_negation_rank` |
| C84 | norm0, max, min and matrix_norminf leave out NaN (max and min except at the first place), because every comparison with NaN is false; cgs whose residual is NaN returns its starting vector, as if it had converged. With annex G of C, the norm of a complex number with parts NaN and 2^600 is infinite and not NaN. | `c84_negation_norm0`, `c84_negation_max`, `c84_negation_norminf`, `c84_negation_cgs`, `c84_negation_complex` |
| C85 | norm2 adds squares without scaling: it is infinite if an element is 2^512 or more, and zero if all are below 2^-538, though the exact norm is a double. | `c85_negation_overflow`, `c85_negation_underflow`, `c85_negation_complex_overflow`, `c85_negation_complex_underflow` |
| C86 | The last element of linspace is computed, not set: linspace(0, 1, 50) ends below 1 and linspace(0, 29, 8) above 29. If b - a overflows, the first element is NaN and the others infinite. | `c86_negation_last`, `c86_negation_overflow` |
| C87 | sdf_load returns `[]` for vectors of tensors; several numbers with the same name give the same as a vector; a vector of tensors without a name ends the reading; a name which begins with "sdf" is taken for the header, except in the first variable; variables with the same name and different lengths, and names which are not identifiers of Matlab, are errors; a vector which was cut is read without an error with fewer elements. | `c87_negation_vector`, `c87_negation_same`, `c87_negation_stop`, `c87_negation_sdf`, `c87_negation_lengths`, `c87_negation_name`, `c87_negation_cut` |
| C88 | The last part of a path is always cut: sdf_load_dataset('d/e') looks for the files of d/e in d. A name whose dimensions did not agree once is left out of all datasets which are read later in the session, because SDF_AVOID is never cleared. | `c88_negation_path`, `c88_negation_mismatch`, `c88_negation_avoid` |
| C89 | toc() before any call of tic() is the time since 1970, as the variable is zero at the start; it is negative if the clock was set back. | `c89_negation_no_tic`, `c89_negation_clock` |
| C90 | isdir tests `st_mode & S_IFDIR` in place of S_ISDIR: it is true of all block devices and sockets. | `c90_negation_kind` |
| C91 | With the number first the order comparisons are wrong at equal elements, as in C10, also for infinities and zeros of different sign. sort and sort_indices of a tensor with a NaN and two different numbers are undefined behaviour, because the comparison is not a strict weak ordering; all_equal(a, a) is false if `a` has a NaN. | `c91_negation_number_first`, `c91_negation_nan`, `c91_self` |
| C92 | dngets sorts twice and relies on the second sort to leave equal values in the order of the first; the shell sort does not. With 3+4i, 3-4i, 3 and -5 and two values of largest magnitude, 3-4i is kept without 3+4i. | `c92_negation_pairs` |
| C93 | The convergence test looks at the last values of one sort and the values which are returned are the first of a sort in the opposite order. If two values are asked for equally, such as 2 and -2 for the largest magnitude, then one may be tested and the other returned: with nev = 1 the value -2 with the error estimate 2 is returned with info = 0. For real problems info = 1 (too many iterations) is also reported if all values have converged, if a value which was not asked for has the error estimate 0. | `c93_negation_ties`, `c93_negation_info` |
| C94 | With BLAS integers of 32 bits (the type `integer` in tensor_blas.h with most libraries) the sizes are converted without a check. The product of a row of 2^32 + r elements and a column is the sum of the first r products; with 2^31 to 2^32 - 1 elements BLAS gets a negative size. Independently of BLAS the number of elements of a product is computed without a check: the product of a column and a row of 2^32 elements overflows, and where overflow wraps it is a tensor with these dimensions and no elements. | `c94_negation_int`, `c94_negation_int_rejected`, `c94_negation_outer` |
| C95 | The result depends on the library: the contraction of (1, 1, 1) and (B, 1, -B) may be 1 or 0, that of (1, 1, 1) and (2^1023, 2^1023, -2^1023) may be 2^1023 or infinity. NaN is lost if it is multiplied with zero and the library leaves such products out. | `c95_negation_order`, `c95_negation_overflow`, `c95_negation_nan` |
| C96 | The reference counters are not atomic. The documentation warns of it (doc/sec_intro.hdoc:54). If two threads copy or destroy copies of one tensor at the same time a count is lost: memory is never released, or it is released while in use, or a write changes another copy, even of the same thread. | `c96_negation_leak`, `c96_negation_released`, `c96_negation_aliasing` |
| C97 | A PRange is a plain pointer which the view deletes. A range in a variable can be used for one slice only: a second use, also in the same expression `t(r, r)`, uses or deletes a deleted object; a range which is not used is never deleted. A mutable view refers to the variable: writing to it after the tensor was replaced by a smaller one is out of bounds. The documentation warns of views in variables (doc/sec_tensor.hdoc:115-121) because they would bypass copy-on-write; that is not so for constant views, which are copies (`c97_snapshot`), and it does not mention ranges. | `c97_negation_reused`, `c97_negation_twice`, `c97_negation_same`, `c97_negation_shared`, `c97_negation_leak`, `c97_negation_resized`, `c97_negation_ended` |
| C98 | Matrices applied one after the other may have a dimension 0 between them, but their product stops the program. | `c98_negation_operators` |
| C99 | Outside of the rules: a reference from at() used for writing after a copy was made changes the copy; a constant reference shows later changes or not, depending on copies, and dangles when the copy is destroyed; a reference does not survive an assignment of a vector of the same size. The rules are not in the documentation. | `c99_negation_write_after_copy`, `c99_negation_constant_reference`, `c99_negation_dangling`, `c99_negation_assignment` |
| C100 | A view with copies is copied when it is written to, so that the write does not reach the array; a copy of a view changes with the array and dangles when the array is released (a function which keeps the argument it gets from eigs); assigning to a view does not write into the array. | `c100_negation_hidden_copy`, `c100_negation_copy_not_independent`, `c100_negation_dangling_copy`, `c100_negation_assignment` |
| C101 | do_eigs has no `delete A` (cgs.cc:62 and eig_power.hpp:66 have one): every call of eigs with a sparse matrix or a function loses the map object, which has a copy of the matrix; its memory is never released, and later writes to the matrix copy all of it. The same happens if a call is left by an exception. | `c101_negation_eigs`, `c101_negation_exception`, `c101_negation_copy`, `c101_maps` |
| C102 | If products overflow then NaN may be the real part of a square whose exact real part is 0. | `c102_negation_overflow` |
| C103 | resize gives up the old buffer before it allocates the new one (refcount.hpp:137-141). If the allocation fails (also for negative or very large sizes) the vector is left with a buffer it has no share in: destroying it releases the buffer twice, or takes it from its copies. Also clone() loses the new data if there is no memory for the `pointer` object. The library itself does not call Vector::resize. | `c103_negation_resize`, `c103_negation_resize_shared`, `c103_negation_resize_lost`, `c103_negation_lost` |
| C104 | mmult(S, T) need not equal mmult(full(S), T): a place without a stored element hides infinities and NaN of T, the full matrix makes NaN of them. | `c104_negation_full` |
| C105 | s * b and s / b are not the full operations when b is infinite, NaN or (for /) zero: places without a stored element stay zero, the full matrix has NaN there. The product of a complex and a real sparse matrix converts the real one, so infinities give NaN parts which the full product does not have. | `c105_negation_scale`, `c105_negation_mixed` |
| C106 | A valid range with a large step is undefined: the addition after the last element overflows (range(1,1,2^63-1)), and the product of the step and the size of a column too; where overflow wraps, filling the column never ends. Lists which repeat indices give slices whose size overflows, and views of tensors without elements compute products which overflow. | `c106_negation_step`, `c106_negation_endless`, `c106_negation_list`, `c106_negation_empty` |
| C107 | sdf_sort_1d: a field with another last index is meant to give a warning, but the message uses a function and a variable which do not exist, so that there is an error; fields which are numbers are an error too, in particular a data set of one file cannot be sorted. sdf_sort_2d: without `rows` the result has the shape of the transposed grid with elements in the order of the grid; if all x are equal the files are not sorted, if all y are equal there is an error; values of y which are closer to each other than half of the first difference are mixed. | `c107_negation_other`, `c107_negation_single`, `c107_negation_none`, `c107_negation_rows`, `c107_negation_one_x`, `c107_negation_one_y`, `c107_negation_gap` |
| C108 | A program accepts two variables with the same name. The job sees the first, but what Python reads from the file is the last. | `c108_negation_same_name` |
| C109 | The order of the two parts of a random complex number is the choice of the compiler, so the same seed may give different tensors. | `c109_negation_complex` |
| C109 | RSparse::random with a density of zero has elements NaN where the generator gives zero; with the density NaN all elements are NaN. | `c109_negation_zero`, `c109_nan` |
| C105 | The sum of a sparse complex and a sparse real matrix converts the real one, so an imaginary part -0 becomes 0; in full matrices it stays -0. | `c105_negation_signs` |
| C110 | The function which replaces ::round for compilers before MSVC 1800 computes floor(x - 0.5) for negative x: round(-1.0) is -2, and every negative number which is not halfway between integers is wrong. | `c110_negation_msvc`, `c110_negation_msvc_integers` |
| C111 | FunctionMap keeps a reference to its function: `new FunctionMap<...>(with_args(...))`, kept beyond the statement, refers to a destroyed closure and each call of it is undefined behaviour. | `c111_negation_temporary`, `c111_dropped` |
| C112 | permute, transpose and adjoint move pointers beyond the end of the result, by up to a column less one element, which is undefined behaviour by the language (harmless on processors with one address space); exactly when is c112_pointers. Tensors without elements, and kron of matrices without elements, overflow although the result has no elements. | `c112_pointers`, `c112_negation_transpose`, `c112_negation_adjoint`, `c112_negation_empty`, `c112_negation_kron` |
| C113 | With integers of 32 bits svd of a matrix with 2^32 + m rows silently decomposes the m-row matrix of its first elements; without VT a matrix with 2^32 columns has no singular values; the complex solve takes n by 2^32 + n as square (the real one stops); 2^32 right hand sides are returned as the solution; a vector of 2^32 + n elements is taken for n equations. The size of the workspace goes through `int` in svd_d.cc:99, eig_d.cc:96, eig_sym_d.cc:71 and eig_sym_z.cc:75, so 2^31 elements are undefined behaviour with 64 bits too. eig and eig_sym stop for every size that does not fit. | `c113_negation_rows`, `c113_negation_shape`, `c113_negation_columns`, `c113_negation_square`, `c113_negation_sides`, `c113_negation_equations`, `c113_negation_workspace`, `c113_negation_workspace_eig`, `c113_negation_full`, `c113_stops` |
| C114 | `a -= a[0]` (all four operators) uses the new value of a[0] for the elements after it, unless another tensor shares the data of `a`: the result depends on unrelated copies. `a -= a.at(0)` always does. `*=` and `/=` with a number return a copy (tensor_ops.hpp:187, 192), the others a reference: `const RTensor &r = (a *= 2)` does not follow `a`, and `(a *= 2) *= 3` does not compile. | `c114_own_element`, `c114_own_element_at`, `c114_negation_own_element`, `c114_result_copy`, `c114_negation_result` |
| C115 | On Windows the word of CryptGenRandom is stored in a variable that is not used (rand.cc:55-66): without set_seed all the programs draw the same numbers, and rand_reseed after set_seed only skips 6240 numbers. The result of fread is not looked at (rand.cc:88): without bytes the seed is not initialised. RANDSEED is an int: texts of numbers from 2147483648 on are undefined. Without /dev/urandom only the last 32 bits of the clock count. | `c115_negation_windows`, `c115_negation_windows_seed`, `c115_negation_short`, `c115_negation_text` |
| C116 | blas::integer has 32 bits by default: from 107374183 elements on, n * ncv overflows (arpack_t.cc:82), also for one eigenvalue. A function of 2^32 + m elements is called with vectors of m elements, and the eigenvalues of this other function are returned. ldz is an int also if blas::integer has 64 bits (arpack_t.cc:192), so that eigenvectors of 2^31 elements or more are not returned. | `c116_negation_basis`, `c116_negation_overflow`, `c116_negation_map`, `c116_negation_ldz` |
| C117 | Lengths and strides are converted to int without a check (fftw_common.cc:32, 36, 53-55, 59-61, 65-67, 89-97). A vector of 2^31 elements or more gets a negative length, and the plan is NULL; with 2^32 + m elements only the first m are transformed. The last index of a tensor of 65536 x 65536 x 2 elements is transformed with stride 0, and half of the tensor is left as it was. | `c117_negation_null`, `c117_negation_vector`, `c117_negation_rest`, `c117_negation_stride` |
| C118 | The sizes of the Kronecker product are computed without a check (sparse_kron.hpp:32-34), unlike those of the constructor with safe_size. Two matrices with one element and 2^40 columns have a product with one element, but its number of columns overflows. If overflows wrap, a product with 2^64 elements is an empty matrix, and full() of an empty matrix with 2^32 rows and columns is a tensor without memory. mmult with a tensor without elements may overflow (mmult_sparse_tensor.h:87). | `c118_negation_kron`, `c118_negation_columns`, `c118_negation_lost`, `c118_negation_full`, `c118_negation_mmult` |
| C119 | scprod(x,x) of complex tensors is not real if operations are fused: for the element (1 + 2^-27)(1 + i) the imaginary part may be -2^-54 (tensor_norm2_z.cc:34). Without fused operations it is exactly zero. Two tensors may be orthogonal with one compiler and not with another. norm2 is safe, because it takes the real part, which is never negative. | `c119_real_partial`, `c119_negation_real`, `c119_negation_same` |
| C120 | Lengths of tensors are written as `index`, which is `long`, and read as `size_t` (odata_file.cc:184, idata_file.cc:176-177). On 64-bit Windows these have 4 and 8 bytes: loading any tensor with elements (and any number) takes the length and the first dimension together for the length and reads past the end of the buffer of dimensions. The header only has the sizes of int and long, so that the file is not refused. | `c120_round_trip_partial`, `c120_negation_windows`, `c120_windows_32` |
| C121 | The counter of references is an int (refcount.hpp:68), which overflows at the 2^31-th vector with the same data. Vectors have 8 bytes, so that e.g. a std::vector of so many copies of one tensor fits in the memory of large machines. Below this number everything is as with unbounded counters. | `c121_counters_partial`, `c121_negation_copies` |
| C122 | clone() loses its new data if there is no memory for the `pointer` object (refcount.hpp:49-53). Tensor(-1, -2) is accepted and has two elements (tensor_base.hpp:70-76), while total_size() of its dimensions is 0; arithmetic then writes beyond the memory of its result. | `c122_negation_lost`, `c122_negation_negative` |
| C129 | matrix_norminf compares with `<` (matrix_norminf_d.cc:44), which is false for NaN: the norm of a matrix with a row of NaN is that of its other rows. Means along the last index are those of C30. | `c129_negation_norminf`, `c129_mean_partial` |
| C130 | Indices beyond 2^53 are rounded by index_to_tensor, so that different lists give the same tensor. | `c130_injective_partial`, `c130_negation_injective` |
| C132 | The power method may return an infinite vector together with the right eigenvalue, without notice: the norm is computed from squares, which underflow for small matrices (2^-600 is enough). C65 has the same for the zero matrix. | c132_negation_tiny |
| C132 | The power method does not say when it did not converge: for the matrix (0 c; c 0), with the eigenvalues c and -c, and the start (1, 0), it uses all of its iterations (one more than asked for, 21 by default) and returns 0, which is not an eigenvalue. | c132_negation_swap |
| C133 | cgs reports convergence (returns before maxiter) for wrong results, if the start is large: for the equation x = 1 and the start -3 2^59 it returns 0, because its test is about a vector which is updated and not about b - A x. | c133_negation_start |
| C135 | `igen << x` for a double which is NaN, infinite or too large has no meaning (undefined behaviour), and `xgen << 1 << 2.5` is the vector 1, 2: its type is that of the first number. | c135_negation_range, c135_negation_xgen |
| C136 | Integers above 2^53 are not exact, as everywhere with doubles: the sum of 2^53 and 1 is not 2^53 + 1. | c136_negation_bound |
| C137 | `expm` of a matrix of finite numbers is undefined if the sum of a row overflows (or if the matrix is zero, or has an infinite element): an infinite logarithm is converted to int. | `c137_undefined` |
| C137 | `expm` of every matrix whose norm is finite and at least 2^1023 is the identity, also for -2^1023, whose exponential underflows: exp2(1024) is infinite and the scaled matrix is zero. | `c137_negation_huge`, `c137_negation_witness` |
| C137 | The scaled matrix may have norm 1/2, while the comment says that it is less. | `c137_negation_half` |
| C137 | For orders above 2^31, `2*order` wraps and a coefficient is divided by zero. | `c137_negation_order` |
| C15 | Lists of indices and ranges with a step also divide by zero if the dimension before is zero. | `c15_negation_division_list` |
| C43, C44 | Writing `name` deletes a file of the user called `name.lck` (shared mode) or `name.tmp` (paranoid mode). | `c43_lock_name`, `c44_tmp_name` |
| C87 | Of a vector of tensors and a tensor with the same name, Matlab returns just the tensor; a file which was cut after the real part of a number is an error. | `c87_negation_list_same`, `c87_negation_cut_complex` |
| C87 | A vector without elements is read in Matlab as 0×0, not 0×1; of several matrices without rows and columns with the same name just one is returned; a vector without elements or a matrix without rows and columns is lost if another variable with its name follows. | `c87_zero`, `c87_negation_zero_same`, `c87_negation_zero_lost` |
| C138 | Addition of tensors is not associative (for tensors of any dimensions which have elements); sum(transpose(a)) may be 1 when sum(a) is 0; the mean of five times 2^53-1 is 2^53-2, below the smallest element; (a/2)*2 differs from a for the smallest number; a-a and a/a are NaN at infinite elements. | c138_negation_assoc, c138_negation_sum_transpose, c138_negation_mean, c138_negation_half, c138_negation_self |
| C139 | In doubles, scprod of real tensors as complex ones has the imaginary part NaN if an element is infinite; the product of two negative numbers, or zeros, as complex numbers has the imaginary part -0, not +0. | `c139_negation_double_scprod`, `c139_negation_double_mul` |
| C134 | Contracting two pairs of indices, one with fold and one with trace, depends on which is which if a pair has different dimensions: trace leaves out what one of the tensors has not, fold stops the program. | c134_negation_fold_trace |

Observations which are not contradictions of a listed property:

* `trace(A,i,j)` does not admit the position -rank, which other functions do (`c25_trace_minus_rank`).
* The operators between tensors of the same type only compare total sizes: a 2 x 3 tensor can be
  added to a 3 x 2 one (tensor_t_op_t.cc). The ones for mixed types compare dimensions.
* `fold` of tensors with an empty contracted index stops the program instead of giving zeros, while
  `foldin` gives zeros.
* `Sparse(rows, cols, nonzero)` with nonzero > 0 is not a consistent matrix, and transposing it uses
  uninitialised memory (`c36_preallocated*`). The constructor is meant for further filling, but no
  function of the interface does so.
* `Sparse(vector)` reads a second dimension that does not exist (`c35_vector`).
* A variable whose name has more than 63 characters is written with a shortened name and cannot be
  loaded with its own name (`c42_long_name`). A number cannot be loaded from an empty tensor
  (`c42_empty_as_number`: undefined, not a stop).
* A data file which exists but is empty never gets a header (`c43_empty_file`).
* `tag_to_name` tests `tag > 4` for an array of 4 names, and uses the index also when the test fails.
* `get_lock` only accepts descriptors greater than 0: a process without a standard input locks the
  file with descriptor 0 and then waits for itself. (Not modelled.)
* `Job::open_dataset` names the file of a job by its number converted to `int`: jobs whose numbers
  differ by 2^32 share a file. A variable with a negative number of steps stops the program by
  asking for too much memory, not with a message.
* `linalg.h` declares `cgs(RSparse, CTensor)`, which is not defined; `cgs(CSparse, CTensor)` is defined and
  not declared. `cgs` stops the program for systems which are not positive (`c57_indefinite`), also
  if they have a solution.
* The comment of `expm` says that the matrix is scaled until the norm is smaller than 1/2; it is smaller than 1
  (`c58_expm_partial`), which suffices for the equations to have a solution.
* The functions of fftw_common.cc convert dimensions and strides to `int`, and declare an array of
  zero elements for tensors with one index.
* test_linalg_eigs.cc: the loop over `type` in test_eigs_eye never uses it (it always passes
  LargestMagnitude), and the two tests EigsRSparsePermutedDiagonal and EigsCSparsePermutedDiagonal
  run with dense matrices, so that eigs of sparse matrices is only tested with the identity.
* test_linalg_eig_power.cc: the tests RandomEigPowerLeftTest call the function for the right, so
  that test_random_eig_power_left never runs. random_Hermitian_with_gap makes, for complex numbers,
  matrices which are normal but not Hermitian.
* The table of messages of get_data does not follow the codes of the library from -5 on, and the
  entries for 15 and 16 are null pointers. set_random_start_vector and get_data do not look at the
  state. The objects have pointers and the copy constructor of the compiler, so that a copy is freed
  twice. The functions that take `Map` never free the map that eigs makes for a sparse matrix.
* eigs_sym.cc, eigs_symz.cc, eigs_sym_sp_d.cc, eigs_sym_sp_z.cc and eigs_sp_t.cc are in the
  directory and are not compiled. If the library has not converged and `converged` was given, eigs
  returns zeros and leaves the vectors as they were.
* python/sdf.py: `load(f, into=...)` calls a method `load_into` which does not exist; `byteswwap` is
  a misspelling, so files with the other order of bytes cannot be read (C79); `Error` in load_record
  is not defined. All of these are exceptions either way.
* Jobs (C48) take their parameters from linspace, so that the last value of a job's parameter can be
  outside the limits given by the user (C86).
* matlab/sdf_sort_1d.m calls `warn` and uses `field`, which do not exist, where it wants to warn;
  sdf_sort_1d and sdf_sort_2d fail for fields with one element (`k(end)` of an empty array).
* make_directory prints the name of the directory to the standard output (make_directory.cc:33), so
  that Job::open_dataset does so too.
* The loops of permute, transpose and adjoint move an iterator by a whole stride after the last
  element of each inner loop (tensor_permute.cc:42, matrix_adjoint.cc:37), so that for every matrix
  with two or more columns pointers are formed beyond the element after the last one, which C++ does
  not define. They are not used, and the model only has the positions which are read and written.

## 6. How to read seeded/LOG.jsonl

Each line is one wrong program. `level` says how far the test went:

* `claim` (714 lines): a theorem of MANIFEST.json failed.
* `lemma` (975 lines): only auxiliary lemmas, or examples, failed. Lean goes on after a lemma fails as if it were
  proved, and modules which import it are not built (`modules_not_rebuilt`). Such a line shows that the proof
  in its present form does not fit the wrong program. It does not show that the claim is false of it.
* `survived` (27 lines): everything was accepted. Several of these were not entered in the log when they
  were found, because the script left out survivors; they have notes with what is known about them: eleven
  were rejected when they were tried again after theorems had been added, the others are believed to be equivalent or
  outside of the claims.
* `unknown` (1 lines): the build ran out of time.

The counts are those of the time of writing. The level was computed afterwards for older lines, from the names in
`theorems_failed` and the present MANIFEST.json.

The difference matters. Inverting the step or the conjugation in conjugate gradients (CgsFl.loop) makes the unfolding
lemma `loop_succ` fail. When `loop_succ` is restated for the wrong program (`lemmas_restated`), all theorems that C133
had at that time are accepted: they hold for any steps. `c133_two_steps` was added for this reason. Other lines with level
`lemma` have not been repeated in this way, and some of them may hide claims which are too weak.
