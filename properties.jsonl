{"id": "C01", "title": "Copies behave as independent values", "statement": "Vectors, Indices and Tensors copied or assigned from one another behave as independent values: after any history of constructing, copying, assigning, writing elements, reallocating and destroying handles, reading a handle returns exactly what was last written through that handle (or inherited at the time of the copy), never a value written through another handle.", "quantifier": "every finite history of handle operations over any number of handles, element values and sizes", "why_tests_cant": "Copy-on-write bugs depend on the interleaving of copies and writes over many handles; test_refcount.cc follows a few fixed histories of two or three handles.", "anchors": ["include/tensor/refcount.h:RefPointer", "include/tensor/detail/refcount.hpp:RefPointer::appropriate, operator=, reallocate, begin", "include/tensor/vector.h:Vector"]}
{"id": "C02", "title": "No leak, double free or use after free in shared buffers", "statement": "Through any history of handle operations every buffer is released exactly once, at the moment its last handle goes away, never read or written after that; the reference count reported by a handle equals the number of live handles on its buffer; and after all handles are destroyed no buffer remains. Buffers wrapped without ownership are never released by the library.", "quantifier": "every finite history of construct/copy/assign/write/reallocate/destroy over any number of handles, with owned and unowned buffers", "why_tests_cant": "Leaks and double frees appear only in particular histories; a sanitizer checks the histories that were run.", "anchors": ["include/tensor/refcount.h:RefPointer", "include/tensor/detail/refcount.hpp:dereference, reference, ~RefPointer", "include/tensor/vector.h:Vector(size_t, elt_t*)"]}
{"id": "C03", "title": "Copying a dataset handle is safe", "statement": "A handle returned by Job::open_dataset can be copied like a shared pointer: the file object is deleted exactly once, after the last copy is destroyed.", "quantifier": "every history of creating, copying and destroying dataset handles", "why_tests_cant": "Double deletion is undefined behaviour which often passes silently in a test run.", "anchors": ["include/tensor/refcount.h:shared_ptr", "include/tensor/jobs.h:Job::dataset"]}
{"id": "C04", "title": "Element access addresses exactly one element, in column-major order", "statement": "For a tensor of rank n, t(i1,...,in), and t.at(i1,...,in) for n > 1, with every index in [-d_k, d_k) read/refer to the element at column-major position i1 + d1*(i2 + d2*(...)) after adding d_k to the negative indices; different normalised index tuples address different elements, every element is addressed by some tuple, and any index outside that range or a wrong number of indices stops the program instead of touching memory outside of the tensor. (t.at(i) with one index accepts any rank and counts positions in column-major order.)", "quantifier": "all ranks 1 to 6, all dimension lists, all index tuples (in or out of range)", "why_tests_cant": "The set of dimension lists and index tuples is unbounded; tests sample small ones.", "anchors": ["include/tensor/detail/tensor_base.hpp:Tensor::operator(), Tensor::at", "include/tensor/detail/common.h:normalize_index"]}
{"id": "C05", "title": "Writing one element changes that element only", "statement": "After t.at(i1,...,in) = v, reading t(i1,...,in) gives v, reading any other index tuple gives what it gave before, and the dimensions are unchanged.", "quantifier": "all ranks 1 to 6, dimension lists, pairs of index tuples, values", "why_tests_cant": "Requires quantifying over all pairs of positions in all shapes.", "anchors": ["include/tensor/detail/tensor_base.hpp:Tensor::at"]}
{"id": "C06", "title": "Reshaping never changes, loses or invents data", "statement": "reshape(t, dims) with a matching total size keeps the sequence of elements and only changes dimensions, reshaping back gives the original, flatten gives the elements in column-major order, and a total size mismatch stops the program.", "quantifier": "all tensors and all target dimension lists", "why_tests_cant": "Dimension lists are unbounded; also covers the empty-dimension and zero-dimension corner cases.", "anchors": ["include/tensor/detail/tensor_base.hpp:Tensor(const Indices&, const Tensor&), reshape", "src/tensor/tensor_reshape_d.cc:reshape", "src/tensor/tensor_flatten_d.cc:flatten", "src/indices/indices.cc:Indices::total_size"]}
{"id": "C07", "title": "Index range generator", "statement": "Indices::range(min,max,step) with positive step returns exactly the arithmetic progression min, min+step, ... of the values not above max, in increasing order, and the empty list when max < min.", "quantifier": "all integers min, max and all positive steps", "why_tests_cant": "Off-by-one errors of the final element depend on the residues of unbounded integers.", "anchors": ["src/indices/indices.cc:Indices::range"]}
{"id": "C08", "title": "Concatenation of index lists", "statement": "a << b contains the elements of a followed by the elements of b, nothing else, and leaves a and b unchanged; static generators igen/rgen/cgen << x1 << ... << xn produce x1,...,xn in this order.", "quantifier": "all pairs of index lists, all generator chains", "why_tests_cant": "Unbounded lengths, including the empty ones.", "anchors": ["src/indices/concat.cc:operator<<", "include/tensor/gen.h:StaticVector"]}
{"id": "C09", "title": "Boolean index algebra", "statement": "which(b) lists in increasing order exactly the positions holding true; all_of, any_of, none and !, &&, || act elementwise as in logic (De Morgan laws hold, all_of(b) iff which(!b) is empty); operands of different sizes stop the program.", "quantifier": "all boolean vectors", "why_tests_cant": "Unbounded vectors; the interplay of the functions is not enumerated by unit tests.", "anchors": ["src/indices/which.cc:which", "src/indices/booleans.cc:all_of, any_of", "src/indices/booleans_and.cc", "src/indices/booleans_or.cc", "src/indices/booleans_not.cc"]}
{"id": "C10", "title": "Comparisons agree elementwise, in both operand orders", "statement": "a < b, a <= b, ... between index lists or tensors and numbers return the vector of elementwise comparisons; comparing a number with a container, x < v, gives elementwise x < v[i].", "quantifier": "all containers, numbers and the six comparison operators, number on either side", "why_tests_cant": "The failing inputs are exactly those with equal elements.", "anchors": ["include/tensor/indices.h:operator<, <=, >, >= (index, Indices)", "include/tensor/tensor.h:operator<, <=, >, >= (double, RTensor)", "src/compare/*.cc"]}
{"id": "C11", "title": "Slicing reads exactly the cartesian selection", "statement": "t(r1,...,rn) is the tensor whose k-th dimension is the size of r_k and whose element at (j1,...,jn) is t(r1[j1],...,rn[jn]), where r[j] is the j-th index of the range: all indices, a single index, start:stop:step, or an explicit list (repetitions and any order allowed).", "quantifier": "all ranks, shapes with non-zero dimensions, and in-bounds ranges of all kinds", "why_tests_cant": "The product-iterator state machine is exercised over unboundedly many combinations of range kinds and shapes.", "anchors": ["src/views/range.cc:FullRange, SingleRange, StepRange, IndexRange, ProductRange, product", "src/tensor/tensor_view.hpp:view::operator Tensor", "include/tensor/detail/tensor_slice.hpp:Tensor::operator()(PRange,...)"]}
{"id": "C12", "title": "Assigning to a slice changes the selected elements and nothing else", "statement": "t.at(r1,...,rn) = s (tensor, slice or number) puts the consecutive elements of s in the selected positions in column-major order, leaves every other element of t unchanged, and stops the program when the number of elements differs; this also holds when s is an overlapping slice of t itself, which is read as it was before the assignment.", "quantifier": "all ranks, shapes with non-zero dimensions, in-bounds ranges without repeated positions, right-hand sides", "why_tests_cant": "Aliasing and frame conditions range over all positions of all shapes.", "anchors": ["src/tensor/tensor_view.hpp:mutable_view::operator=", "src/views/range.cc"]}
{"id": "C13", "title": "Range bounds are checked", "statement": "Slicing with a range that contains an index outside of the tensor's dimension stops the program rather than reading or writing outside of the tensor's memory.", "quantifier": "all shapes, all ranges of all kinds", "why_tests_cant": "Only boundary values expose it (an explicit list containing the dimension itself, or negative values).", "anchors": ["src/views/range.cc:SingleRange::set_limit, StepRange::set_limit, IndexRange::set_limit"]}
{"id": "C14", "title": "Negative range limits count from the end", "statement": "As documented, negative values in range(...) count from the end of the dimension: t(range(a,-1)) selects from a to the last element.", "quantifier": "all shapes and negative limits", "why_tests_cant": "The manual gives it as a general rule for all dimensions.", "anchors": ["doc/sec_tensor.hdoc:sec_tensor_slices", "src/views/range.cc:StepRange, SingleRange"]}
{"id": "C15", "title": "Slicing always terminates, also on empty tensors", "statement": "Evaluating or assigning a slice finishes for every tensor shape, including those with zero-sized dimensions, and such slices select nothing.", "quantifier": "all shapes including zero dimensions, all ranges accepted by the bounds check", "why_tests_cant": "Non-termination needs specific zero dimensions combined with specific range kinds.", "anchors": ["src/views/range.cc:StepRange::set_factor, ProductRange::pop, SingleRange::set_factor"]}
{"id": "C16", "title": "Assigning a whole tensor to its own slice", "statement": "t.at(ranges) = t with a number of selected positions equal to the size of t assigns the old contents of t (as for any other right-hand side).", "quantifier": "all tensors and permuting ranges", "why_tests_cant": "Aliasing only shows up when source and destination are the same object.", "anchors": ["src/tensor/tensor_view.hpp:mutable_view::operator=(const Tensor&)"]}
{"id": "C17", "title": "Permuting two indices", "statement": "permute(t,i,j) has dimensions with d_i, d_j exchanged and its element at an index tuple is the element of t at the tuple with entries i and j exchanged; doing it twice gives back t; negative i, j count from the end.", "quantifier": "all ranks, shapes and index pairs", "why_tests_cant": "The implementation has special cases for unit dimensions; all combinations of unit and non-unit dimensions of all sizes are required.", "anchors": ["src/tensor/tensor_permute.cc:do_permute, permute_12, permute_23, permute_24, permute_13", "src/tensor/matrix_transpose.cc:transpose"]}
{"id": "C18", "title": "Transpose and adjoint", "statement": "transpose(m)(j,i) = m(i,j) and adjoint(m)(j,i) = conj(m(i,j)), both are involutions, and they reverse matrix products: transpose(mmult(a,b)) = mmult(transpose(b),transpose(a)), likewise adjoint.", "quantifier": "all matrices (all shapes, including zero rows or columns)", "why_tests_cant": "An algebraic law over unbounded sizes.", "anchors": ["src/tensor/matrix_transpose.cc:transpose", "src/tensor/matrix_adjoint.cc:adjoint", "src/tensor/tensor_fold_d.cc:mmult"]}
{"id": "C19", "title": "Tensor contraction", "statement": "fold(A,i,B,j) is the tensor whose indices are those of A without i followed by those of B without j and whose elements are the sums over l of A(..,l,..)*B(..,l,..), independently of which BLAS call pattern the implementation selects; a mismatch of contracted lengths, or an empty contracted index, stops the program.", "quantifier": "all ranks and shapes of A and B, all pairs of contracted positions (positive or negative), all elements", "why_tests_cant": "Five code paths are chosen by the shapes; the law must hold for all of them and all sizes.", "anchors": ["src/tensor/tensor_fold.cc:do_fold", "src/tensor/tensor_fold_d.cc:fold, fold_into"]}
{"id": "C20", "title": "Conjugating contraction", "statement": "foldc(A,i,B,j) equals fold(conj(A),i,B,j) for every combination of real and complex arguments.", "quantifier": "all ranks, shapes, contracted positions and elements", "why_tests_cant": "Each code path conjugates at a different place (BLAS flag or a final pass).", "anchors": ["src/tensor/tensor_fold.cc:do_fold", "src/tensor/tensor_fold_z.cc:foldc", "src/tensor/tensor_fold_dz.cc:foldc"]}
{"id": "C21", "title": "In-place contraction order", "statement": "foldin(A,i,B,j) contracts as fold does but places the remaining indices of A at the position of the contracted index of B: C(b_0.., a.., ..b_n) = sum_l A(..l..) B(..l..).", "quantifier": "all ranks, shapes and positions", "why_tests_cant": "Unbounded ranks and shapes; a boundary case (two vectors) escapes.", "anchors": ["src/tensor/tensor_foldin.cc:do_foldin_into, foldin"]}
{"id": "C22", "title": "Matrix product algebra", "statement": "mmult on matrices is the matrix product: associative, with eye(n) as identity on both sides and distributive over +; mmult of conforming operands with a non-empty inner dimension never fails (an empty one stops the program, C19).", "quantifier": "all conforming matrices over any commutative ring of elements", "why_tests_cant": "Algebraic laws over all sizes and values.", "anchors": ["src/tensor/tensor_fold_d.cc:mmult", "include/tensor/detail/tensor_matrix.hpp:eye"]}
{"id": "C23", "title": "Contraction into an existing tensor", "statement": "fold_into(C,A,i,B,j) leaves in C the same value as C = fold(A,i,B,j), whatever C was before, also when C is A or B.", "quantifier": "all A, B, positions, and all aliasing patterns between C, A and B", "why_tests_cant": "Aliasing cases.", "anchors": ["src/tensor/tensor_fold.cc:do_fold", "src/tensor/tensor_fold_d.cc:fold_into", "src/tensor/tensor_foldin.cc:foldin_into"]}
{"id": "C24", "title": "Scaling along an index", "statement": "scale(A,n,v) multiplies each element of A by v at its n-th index; scale_inplace stores the same result in A; a length mismatch stops the program; scaling by v then w equals scaling by the elementwise product.", "quantifier": "all shapes, positions, vectors", "why_tests_cant": "All shapes and positions.", "anchors": ["src/tensor/tensor_scale.cc:doscale, scale, scale_inplace"]}
{"id": "C25", "title": "Tracing two indices", "statement": "trace(A,i,j) sums the elements of A with equal i-th and j-th index and keeps the other indices in order; trace(m) of a matrix is the sum of its diagonal; trace(mmult(a,b)) = trace(mmult(b,a)).", "quantifier": "all shapes and positions", "why_tests_cant": "All shapes and positions, including equal and adjacent ones.", "anchors": ["src/tensor/tensor_trace.cc:trace", "src/tensor/matrix_trace.cc:trace"]}
{"id": "C26", "title": "Extracting a diagonal over two indices of a tensor", "statement": "take_diag(A,which,i,j) returns the which-th diagonal over indices i and j, keeping the other indices in place.", "quantifier": "all shapes, diagonals and index positions", "why_tests_cant": "Only tensors with further indices after the second one and a specific relation between dimensions expose errors.", "anchors": ["src/tensor/tensor_take_diag.cc:do_diag, take_diag"]}
{"id": "C27", "title": "Diagonal matrices round trip", "statement": "diag(v,which,r,c) is the r x c matrix with v on the which-th diagonal and zeros elsewhere, and take_diag(diag(v,which),which) = v.", "quantifier": "all vectors, diagonals (positive, negative) and sizes", "why_tests_cant": "All sizes and diagonals.", "anchors": ["src/tensor/matrix_diag.cc:diag", "src/tensor/tensor_take_diag.cc:take_diag"]}
{"id": "C28", "title": "Kronecker products", "statement": "kron(A,B)(i + i_len*j, k + k_len*l) = B(i,k)*A(j,l), kron2(A,B) = kron(B,A), and kron satisfies the mixed product law mmult(kron(A,B),kron(C,D)) = kron(mmult(A,C),mmult(B,D)); kron2_sum(A,B) = kron2(A,1)+kron2(1,B).", "quantifier": "all matrices and sizes", "why_tests_cant": "Algebraic laws over all sizes.", "anchors": ["src/tensor/tensor_kron.hpp:kron, kron2", "src/tensor/tensor_kron2_sum_d.cc:kron2_sum"]}
{"id": "C29", "title": "Changing one dimension", "statement": "change_dimension(t,k,n) keeps the elements whose k-th index is below min(d_k,n), fills the elements with larger index with zeros and returns t unchanged when n = d_k; enlarging and then shrinking gives the original.", "quantifier": "all shapes, positions and new lengths", "why_tests_cant": "All shapes and positions.", "anchors": ["src/tensor/tensor_change_dimension.cc:change_dimension"]}
{"id": "C30", "title": "Averaging over one index", "statement": "mean(t,k) has the dimensions of t without the k-th and holds the averages along it.", "quantifier": "all shapes and positions", "why_tests_cant": "Only the last position exposes the defect.", "anchors": ["src/tensor/tensor_mean_ndx.cc:mean"]}
{"id": "C31", "title": "Squeezing", "statement": "squeeze(t) has the same elements in the same order and the dimensions of t other than 1 in their order.", "quantifier": "all shapes", "why_tests_cant": "Shapes made of ones only or with zero dimensions are the exceptions.", "anchors": ["src/tensor/tensor_squeeze.cc:squeeze_dimensions", "src/tensor/tensor_squeeze_d.cc:squeeze"]}
{"id": "C32", "title": "Elementwise arithmetic", "statement": "The operators + - * / between tensors of equal dimensions, or a tensor and a number (either side), act elementwise and keep the dimensions; in-place forms (+=, ...) give the same values, also when both operands are the same tensor or share data; operands of different total size stop the program.", "quantifier": "all shapes, values, and aliasing between operands", "why_tests_cant": "All shapes and aliasing histories.", "anchors": ["src/generated/tensor_*_tt_*.cc:operator+,-,*,/", "include/tensor/detail/tensor_ops.hpp", "src/tensor/tensor_t_op_t.cc"]}
{"id": "C33", "title": "Reductions", "statement": "sum is the sum of all elements, scprod(a,b) is the sum of a_i*conj(b_i) (linear in its first and conjugate-linear in its second argument, Hermitian), scprod(a,a) = norm2(a)^2, max and min are attained bounds of the elements.", "quantifier": "all tensors of equal sizes", "why_tests_cant": "All sizes and values.", "anchors": ["src/tensor/tensor_sum_d.cc:sum", "src/tensor/tensor_norm2_d.cc:scprod", "src/tensor/tensor_norm2_z.cc:scprod", "src/tensor/tensor_norm2_d.cc:norm2", "src/tensor/tensor_max_d.cc:max", "src/tensor/tensor_min_d.cc:min"]}
{"id": "C34", "title": "Sorting", "statement": "sort returns an ordered rearrangement of its argument (increasing, or decreasing on request) and sort_indices returns a permutation p of positions such that reading the argument in the order p gives the sorted sequence.", "quantifier": "all vectors and both directions", "why_tests_cant": "All permutations of all lengths.", "anchors": ["src/tensor/tensor_sort_d.cc:sort, sort_indices", "src/tensor/tensor_sort_i.cc:sort, sort_indices"]}
{"id": "C35", "title": "Dense-sparse round trip", "statement": "full(Sparse(T)) = T for every matrix, Sparse(T) stores exactly the non-zero elements of T, and S(i,j) agrees with full(S)(i,j).", "quantifier": "all matrices and all positions", "why_tests_cant": "All sparsity patterns of all sizes.", "anchors": ["include/tensor/detail/sparse_base.hpp:Sparse(const Tensor&), full, operator()"]}
{"id": "C36", "title": "Sparse structure invariant", "statement": "Every sparse matrix produced by any sequence of library operations (conversion, eye, +, -, *, scaling, transpose, adjoint, conj, kron) is well formed: row pointers are non-decreasing, start at 0 and end at the number of stored elements, and the columns in each row are in range and strictly increasing.", "quantifier": "every finite expression over the sparse operations", "why_tests_cant": "Expression depth and sizes are unbounded.", "anchors": ["include/tensor/detail/sparse_base.hpp", "include/tensor/detail/sparse_ops.hpp:sparse_binop", "src/sparse/sparse_kron.hpp"]}
{"id": "C37", "title": "Sparse arithmetic agrees with dense arithmetic", "statement": "full(A op B) = full(A) op full(B) for op in +, -, * between sparse matrices of equal dimensions; scaling by a number and division by a number, conj, real and imag likewise commute with full.", "quantifier": "all pairs of sparse matrices with equal dimensions", "why_tests_cant": "The merge of two column lists has unboundedly many interleavings.", "anchors": ["src/sparse/sparse_binop.hpp:sparse_binop", "src/generated/sparse_*_*.cc"]}
{"id": "C38", "title": "Sparse Kronecker product agrees with dense", "statement": "full(kron(A,B)) = kron(full(A),full(B)), and the same for kron2 and kron2_sum.", "quantifier": "all pairs of sparse matrices", "why_tests_cant": "All sparsity patterns.", "anchors": ["src/sparse/sparse_kron.hpp:do_kron", "src/sparse/sparse_kron_d.cc:kron, kron2, kron2_sum"]}
{"id": "C39", "title": "Sparse-dense products agree with dense products", "statement": "mmult(S,T) = mmult(full(S),T) and mmult(T,S) = mmult(T,full(S)) for conforming operands of any rank.", "quantifier": "all sparse matrices and dense tensors with matching dimension", "why_tests_cant": "All patterns and sizes.", "anchors": ["src/sparse/mmult_sparse_tensor.h", "src/sparse/mmult_tensor_sparse.h"]}
{"id": "C40", "title": "Sparse transpose and adjoint", "statement": "full(transpose(S)) = transpose(full(S)) and full(adjoint(S)) = adjoint(full(S)).", "quantifier": "all sparse matrices", "why_tests_cant": "All patterns; rectangular, with empty rows and columns.", "anchors": ["src/sparse/sparse_transpose_d.cc", "src/sparse/sparse_adjoint_z.cc", "include/tensor/detail/sparse_base.hpp:Sparse(Indices,Indices,Tensor,index,index)"]}
{"id": "C41", "title": "Building sparse matrices from coordinates", "statement": "Sparse(rows,cols,data,nrows,ncols) has full(S)(rows[k],cols[k]) = data[k] for each listed coordinate and zero elsewhere, whatever the order of the list; when the sizes are omitted the matrix is just large enough to hold all coordinates; a repeated coordinate is stored once.", "quantifier": "all coordinate lists", "why_tests_cant": "All orders and repetition patterns.", "anchors": ["include/tensor/detail/sparse_base.hpp:Sparse(const Indices&, const Indices&, const Tensor&, index, index)"]}
{"id": "C42", "title": "Data files return what was written", "statement": "For any sequence of variables (numbers, real and complex tensors, lists of tensors) dumped to a data file, loading the same names in the same order returns identical values; loading with a wrong name or type stops the program.", "quantifier": "all sequences of records, names up to 63 characters, shapes and element bit patterns", "why_tests_cant": "Sequences of records of any length and content.", "anchors": ["include/tensor/sdf.h:OutDataFile, InDataFile", "src/sdf/odata_file.cc:dump", "src/sdf/idata_file.cc:load"]}
{"id": "C43", "title": "Reopening a data file appends", "statement": "Dumping variables over several open/close sessions of the same file (without overwrite) yields the same bytes as dumping them all in one session; the header is written once.", "quantifier": "all partitions of any record sequence in sessions", "why_tests_cant": "All session partitions.", "anchors": ["src/sdf/odata_file.cc:OutDataFile::open, write_header", "src/sdf/data_file.cc:DataFile"]}
{"id": "C44", "title": "A crash never destroys previously saved data (paranoid mode)", "statement": "With SDF_PARANOID, if the program stops at any point while writing and closing the file, the file under its name holds either the complete old contents or the complete new contents.", "quantifier": "every crash point between opening and closing, all old and new contents", "why_tests_cant": "Crash points are not enumerated by tests.", "anchors": ["src/sdf/odata_file.cc:OutDataFile::close", "src/sdf/data_file.cc", "src/sdf/rename_file.cc:rename_file"]}
{"id": "C45", "title": "The file lock gives exclusive access", "statement": "With SDF_SHARED at most one process at a time is between having obtained the lock on a file and releasing it.", "quantifier": "all interleavings of any number of processes acquiring and releasing", "why_tests_cant": "A race between unlink and open needs a specific schedule.", "anchors": ["src/sdf/data_file.cc:get_lock, giveup_lock"]}
{"id": "C46", "title": "Integers stored in data files are recovered exactly", "statement": "dump(n,name) of an int or size_t followed by load returns n.", "quantifier": "all 32-bit ints and all 64-bit unsigned values", "why_tests_cant": "Only values above 2^53 fail.", "anchors": ["src/sdf/odata_file.cc:dump(int), dump(size_t)", "src/sdf/idata_file.cc:load(int*), load(size_t*)"]}
{"id": "C47", "title": "Truncated data files are detected", "statement": "Loading a variable from a file which ends before the variable is complete stops the program rather than returning made-up data.", "quantifier": "all files and truncation points", "why_tests_cant": "All truncation points.", "anchors": ["src/sdf/idata_file.cc:read_raw, load"]}
{"id": "C48", "title": "Jobs enumerate every combination of the variables once", "statement": "For a job with variables of n1,...,nk values, the jobs 0,...,n1*...*nk-1 visit every combination of values exactly once, the first variable changing fastest, and number_of_jobs is the product.", "quantifier": "all numbers of variables and values", "why_tests_cant": "All mixed radix systems.", "anchors": ["src/tools/jobs.cc:Job::select_job, compute_number_of_jobs"]}
{"id": "C49", "title": "Job blocks partition the work", "statement": "Splitting a job in B blocks with --job-blocks, the runs with --this-job 0..B-1 together execute every job exactly once.", "quantifier": "all numbers of jobs and blocks", "why_tests_cant": "Rounding of the block size for all residues.", "anchors": ["src/tools/jobs.cc:Job::Job, operator++, to_do"]}
{"id": "C50", "title": "Job options have defined defaults", "statement": "Any combination of the documented options --first-job, --last-job, --this-job, --job-blocks gives a defined set of jobs to run.", "quantifier": "all subsets of options and values", "why_tests_cant": "Uninitialised values often happen to be harmless in a test.", "anchors": ["src/tools/jobs.cc:Job::Job"]}
{"id": "C51", "title": "Job files define variables", "statement": "Variables listed in the file passed with --job are available as if they had been given with --variable.", "quantifier": "all job files", "why_tests_cant": "All file contents.", "anchors": ["src/tools/jobs.cc:Job::parse_file, parse_line"]}
{"id": "C52", "title": "String splitting", "statement": "The text of a variable (or line of a job file) is split in the maximal non-empty pieces without separators (space, tab, newline, comma, semicolon), in order: no piece is empty or contains a separator, and joining pieces with separators and splitting again gives the same pieces.", "quantifier": "all strings", "why_tests_cant": "All strings.", "anchors": ["src/tools/jobs.cc:split_string"]}
{"id": "C53", "title": "Shifting frequencies is invertible", "statement": "fftshift(fftshift(t,k,FFTW_FORWARD),k,FFTW_BACKWARD) = t; fftshift moves element i along index k to position (i + floor(n/2)) mod n and leaves other indices alone.", "quantifier": "all shapes, positions; even and odd lengths", "why_tests_cant": "Parity-dependent for all lengths.", "anchors": ["src/fftw/fftshift.cc:fftshift"]}
{"id": "C54", "title": "Random numbers are in range", "statement": "rand<T>(upper) is in [0,upper) and rand<T>(lower,upper) in [lower,upper) for T = int, unsigned, long, unsigned long and lower < upper; rand<double>() and rand<float>() are in [0,1).", "quantifier": "all states of the generator and all bounds", "why_tests_cant": "Out-of-range results depend on the generator output; some appear once in millions of seeds.", "anchors": ["include/tensor/rand.h", "src/rand/rand.cc", "src/rand/rand64.cc:genrand_res53", "src/rand/rand32.cc:genrand_res53"]}
{"id": "C55", "title": "Random generator is the Mersenne twister and never leaves its state table", "statement": "From any seed and any previous state, any number of draws only accesses the state table in bounds, and the n-th number is the output of the n-th word of the Mersenne twister recurrence of the seed, so that it only depends on the seed; the output scrambling loses no information (different state words give different outputs); the generator never gets stuck in zeros.", "quantifier": "all seeds, all previous states, all lengths of the sequence", "why_tests_cant": "2^64 seeds and unbounded sequence lengths.", "anchors": ["src/rand/rand64.cc:init_genrand, init_by_array, genrand_int64", "src/rand/rand32.cc:init_genrand, init_by_array, genrand_int32", "src/rand/rand.cc:set_seed, rand_reseed"]}
{"id": "C56", "title": "Block decomposition of matrices", "statement": "find_blocks splits rows and columns in disjoint blocks such that every significant element lies in exactly one block, every block contains a significant element, and the blocks cannot be split further (they are the connected components of the element graph).", "quantifier": "all matrices and tolerances", "why_tests_cant": "All sparsity patterns.", "anchors": ["src/linalg/find_blocks.hpp:find_blocks, replace_integer"]}
{"id": "C57", "title": "Conjugate gradient residual", "statement": "When the conjugate gradient solver stops, the vector it tests against the tolerance is exactly the residual b - A x of the returned x, for any linear map A, and the number of iterations is bounded by the requested one. In exact arithmetic, for a Hermitian positive A the default number of iterations suffices: cgs(A, b) does not stop the program and |b - A x| is not above the tolerance, also when b is a matrix with several columns.", "quantifier": "all linear maps, right-hand sides, start vectors, tolerances, iteration limits", "why_tests_cant": "A loop invariant for all numbers of iterations; rounding hides whether the recurrences are the right ones.", "anchors": ["src/linalg/cgs.cc:solve", "src/tools/map.cc:MatrixMap"]}
{"id": "C58", "title": "Matrix exponential", "statement": "expm(A, order) returns the power 2^j of the diagonal Pade approximant N / D of degree `order` of the exponential, at A / 2^j, where j is the least number such that the rows of A / 2^j are smaller than one; the equations D X = N always have a solution, and the result converges to the exponential of A when `order` grows, with an explicit bound of the error.", "quantifier": "all orders and all square matrices, real and complex", "why_tests_cant": "All orders and all matrices; the error is compared to an infinite series.", "anchors": ["src/linalg/expm_d.cc:expm"]}
{"id": "C59", "title": "Library flags store", "statement": "A flag key created with a default value returns the value last set for this key, or the default; setting one key does not affect another one; new keys are different from all previous ones.", "quantifier": "all histories of create/set/get", "why_tests_cant": "All histories.", "anchors": ["src/tools/flags.cc:Flags"]}
{"id": "C60", "title": "Evenly spaced vectors", "statement": "linspace(a,b,n) has n elements, starts at a, has constant increments, and ends at b for n >= 2.", "quantifier": "all endpoints and counts", "why_tests_cant": "All counts and endpoints.", "anchors": ["src/indices/linspace_d.cc:linspace"]}
{"id": "C61", "title": "Row-sum norm of a matrix", "statement": "matrix_norminf(m) is the greatest of the sums of absolute values of the rows of m.", "quantifier": "all matrices", "why_tests_cant": "All sizes, including matrices without rows or columns, and all values.", "anchors": ["src/tensor/matrix_norminf_d.cc:matrix_norminf", "src/tensor/matrix_norminf_z.cc:matrix_norminf"]}
{"id": "C62", "title": "Comparison of sparse matrices", "statement": "all_equal(A,B) of two sparse matrices is true exactly if they have the same dimensions and the same entries, whatever operations produced them.", "quantifier": "For all pairs of sparse matrices.", "why_tests_cant": "Two representations of the same entries (with and without stored zeros) arise from different histories of operations.", "anchors": ["include/tensor/sparse.h:all_equal"]}
{"id": "C63", "title": "Opening a data file for reading does not change it", "statement": "Creating an InDataFile and closing it leaves the contents of the file as they were, in all modes, and reads that file.", "quantifier": "All file contents, names and modes.", "why_tests_cant": "test_sdf.cc opens files with the default modes only, and does not compare the contents before and after.", "anchors": ["src/sdf/idata_file.cc:InDataFile", "src/sdf/data_file.cc:DataFile"]}
{"id": "C64", "title": "A stop of the program while appending keeps what was in the file", "statement": "If a program stops at any point while it appends to a data file in shared mode, the earlier contents are still there, and all the earlier variables can be read.", "quantifier": "All stopping points, earlier contents and sequences of variables.", "why_tests_cant": "Stopping points are not enumerated by tests.", "anchors": ["src/sdf/odata_file.cc:OutDataFile, dump", "src/sdf/data_file.cc:DataFile"]}
{"id": "C65", "title": "Power method", "statement": "eig_power_right(A,&v,iter,tol) uses the matrix at most iter times and returns a value and a unit vector v such that A v is the value times v, up to the tolerance unless all iterations were used; v has the direction of a power of A times the start; eig_power_left does the same with v A. For Hermitian matrices with a gap the errors decrease geometrically.", "quantifier": "all linear maps, starts, numbers of iterations and tolerances, real and complex", "why_tests_cant": "All matrices and all numbers of iterations; tests use the identity and random normal matrices whose largest eigenvalue is the number 5, so that it is real and well separated.", "anchors": ["src/linalg/eig_power.hpp:eig_power_loop", "src/linalg/eig_power_d.cc:eig_power_right, eig_power_left", "src/tools/map.cc:MatrixMap"]}
{"id": "C66", "title": "Fourier transforms", "statement": "fftw(t,direction), fftw(t,dim,direction) and fftw(t,convert,direction) are the unnormalized discrete Fourier transforms of all the indices, of one, or of those which are marked, and fftw_inplace gives the same. Transforming one index after the other gives the transform of all of them; a transform and then the one in the other direction multiplies the tensor by the number of elements along the transformed indices; sums of squares are multiplied by the same number.", "quantifier": "all ranks, dimensions, indices, marks, elements, both directions", "why_tests_cant": "Strides and orders of dimensions depend on the rank, the dimensions and the marks, which are not bounded; tests use up to three indices and small dimensions.", "anchors": ["src/fftw/fftw_common.cc:do_fftw", "src/fftw/fftw.cc:fftw", "src/fftw/fftw_inplace.cc:fftw_inplace"]}
{"id": "C67", "title": "Singular value decomposition", "statement": "svd(A,&U,&VT,economic) returns the vector of singular values, non-negative and in decreasing order, and leaves in U and VT, if they are given, unitary matrices (or their first min(m,n) columns and rows, if economic) with A = U S VT. If the decomposition is not found, the caller gets to know.", "quantifier": "all sizes, matrices, real and complex, the eight combinations of wanted results, all answers that the manual of gesvd allows", "why_tests_cant": "Sizes and leading dimensions depend on which of U and VT are wanted and on which dimension is larger; tests do not make gesvd fail.", "anchors": ["src/linalg/svd_d.cc:svd", "src/linalg/svd_z.cc:svd"]}
{"id": "C68", "title": "Solution of equations with the singular value decomposition", "statement": "solve_with_svd(A,B,tol) applies to every column b of B the pseudoinverse of A: the result minimizes ||A x - b||, has the smallest norm among the vectors which do, and solves A x = b if the equations have a solution. Singular values below the tolerance count as zeros.", "quantifier": "all sizes, matrices, right hand sides of any rank, tolerances", "why_tests_cant": "No test calls solve_with_svd. One could compare A * X with B for some invertible matrices, but minimality is a statement about all vectors, and the number of discarded singular values is arbitrary.", "anchors": ["src/linalg/solve_with_svd_d.cc:solve_with_svd", "src/linalg/solve_with_svd_z.cc:solve_with_svd"]}
{"id": "C69", "title": "Eigenvalues and eigenvectors", "statement": "eig(A,&R,&L) returns the eigenvalues of a real or complex square matrix, with their multiplicities, the j-th columns of R and L, if they are given, belong to the j-th one, A R = R D and L A = D L; complex eigenvalues of real matrices come with their vectors in conjugate pairs.", "quantifier": "all sizes, matrices, wanted results, arrangements of real and complex eigenvalues, all answers that the manual of geev allows", "why_tests_cant": "The real version unpacks pairs whose positions depend on the matrix. Tests compare A R = R D and the same on the left, with a tolerance, for random matrices; they do not see that D has all the eigenvalues, nor what happens when LAPACK fails.", "anchors": ["src/linalg/eig_d.cc:eig", "src/linalg/eig_z.cc:eig"]}
{"id": "C70", "title": "Eigenvalues of Hermitian matrices", "statement": "eig_sym(A,&V) returns the eigenvalues of a symmetric or Hermitian matrix in increasing order, and V is unitary, with A V = V D and adjoint(V) A = D adjoint(V). Other matrices are refused.", "quantifier": "all sizes and matrices, all answers that the manual of syev and heev allows", "why_tests_cant": "The result must be right for every matrix; tests use some, all of them Hermitian.", "anchors": ["src/linalg/eig_sym_d.cc:eig_sym", "src/linalg/eig_sym_z.cc:eig_sym"]}
{"id": "C71", "title": "Solution of linear equations", "statement": "solve(A,B) returns the only X with A X = B, with the dimensions of B, for a regular matrix A and a right hand side with any number of indices; if the matrix is singular, or A or B do not have the right sizes, the program stops.", "quantifier": "all sizes, matrices, ranks of the right hand side, all answers that the manual of gesv allows", "why_tests_cant": "Singular matrices and right hand sides of any rank are infinitely many cases.", "anchors": ["src/linalg/solve_d.cc:solve", "src/linalg/solve_z.cc:solve"]}
{"id": "C72", "title": "Singular value decomposition by blocks", "statement": "block_svd(A,&U,&VT,economic) is svd(A,&U,&VT,economic) for matrices with blocks: the same singular values in decreasing order, A = U S VT, with U and VT (the first columns and rows of) unitary matrices.", "quantifier": "all sizes, matrices, arrangements of blocks, wanted results, all answers that the manual of gesvd allows, all orders of equal singular values", "why_tests_cant": "The matrix can be split in any number of blocks of any shape, in any position; the tests use identity matrices and matrices without zeros.", "anchors": ["src/linalg/block_svd.hpp:do_block_svd", "src/linalg/block_svd_d.cc:block_svd", "src/linalg/block_svd_z.cc:block_svd"]}
{"id": "C73", "title": "Some eigenvalues of small matrices", "statement": "eigs(A,type,k,&V,&converged) of a matrix of up to four rows returns the k eigenvalues of the given type, in order, and in the columns of V their eigenvectors, A V = V D. Other types and numbers are refused.", "quantifier": "all matrices, types, numbers of eigenvalues, all answers that the manual of dgeev and zgeev allows, all orders of equal keys", "why_tests_cant": "The tests use the identity and diagonal matrices with their rows and columns permuted, which are all symmetric, so that eigenvectors on the left and on the right are the same and all eigenvalues are real.", "anchors": ["src/arpack/eigs_d.cc:eigs", "src/arpack/eigs_z.cc:eigs", "src/arpack/arpack_t.cc:sort_values", "include/tensor/linalg.h:EigType"]}
{"id": "C74", "title": "Use of the Arpack objects", "statement": "A program that makes an RArpack or CArpack object with 0 < nev < n and one of the types, sets parameters, and then calls update(), get_x_vector() and set_y() while the state is Running always calls the library with the arguments that its manual demands, never reads or writes out of the arrays, and when the state is Finished get_data() gives nev values and n x nev vectors. Calls in the wrong state stop the program.", "quantifier": "all sizes, numbers of eigenvalues, types, sequences of calls, vectors given by the program, all libraries that do what the manual of dsaupd, znaupd, dseupd and zneupd says", "why_tests_cant": "The classes are not used by the tests except through eigs, always in the same order and with one library.", "anchors": ["include/tensor/arpack_d.h:RArpack", "include/tensor/arpack_z.h:CArpack", "src/arpack/arpack_d.cc:update", "src/arpack/arpack_z.cc:update", "src/arpack/arpack_d.cc:get_data"]}
{"id": "C75", "title": "Some eigenvalues of large matrices", "statement": "eigs(A,type,k,&V,&converged) of a matrix of n > 4 rows, 0 < k < n, always ends; each product that the library asks for is the product by A. It returns the k eigenvalues of the given type and in the columns of V eigenvectors, or says that it did not converge, or stops. Other types and numbers are refused.", "quantifier": "all sizes, matrices, types, numbers of eigenvalues, initial vectors, all libraries that do what their manual says", "why_tests_cant": "The tests of eigs use the identity and permuted diagonal matrices with fewer than 22 rows, ask for one eigenvalue unless the matrix is the identity, and never look at converged. The only initial vectors are the results of the call before.", "anchors": ["src/arpack/eigs_d.cc:eigs", "src/arpack/eigs_z.cc:eigs", "src/arpack/gemv.cc:gemv", "src/arpack/arpack_d.cc:update", "src/arpack/arpack_z.cc:get_data"]}
{"id": "C76", "title": "Eigenvalues of functions and of sparse matrices", "statement": "eigs of a function that multiplies a vector by a matrix, or of a sparse matrix, gives what eigs of the matrix with all its elements gives: eigenvalues of the given type and eigenvectors. Numbers and types which are not valid are refused.", "quantifier": "all functions, sparse matrices, sizes, types, numbers of eigenvalues, all libraries that do what their manual says", "why_tests_cant": "eigs of a function is not tested. Sparse matrices are only tested with the identity, for which no product is wrong.", "anchors": ["src/arpack/eigs_map_d.cc:do_eigs", "src/arpack/eigs_map_z.cc:do_eigs", "src/arpack/eigs_sp_d.cc:eigs", "src/arpack/eigs_sp_z.cc:eigs", "src/tools/map.cc:MatrixMap", "include/tensor/linalg.h:eigs"]}
{"id": "C77", "title": "Sizes and positions in machine words", "statement": "With 64-bit indices, making a tensor with any dimensions gives one with memory for exactly the product of the dimensions, or stops the program, and element access, reshaping and index ranges compute positions and sizes without overflow.", "quantifier": "all dimensions, indices and ranges of 64-bit integers, ranks 1 to 6 for access", "why_tests_cant": "The tests use small tensors, for which no product is near the limit; those with sizes near 2^63 cannot be allocated, and the overflow in an intermediate product is not seen without checks of the compiler.", "anchors": ["include/tensor/vector.h:index", "src/indices/indices.cc:total_size", "src/indices/indices.cc:range", "include/tensor/detail/tensor_base.hpp:Tensor", "include/tensor/detail/tensor_base.hpp:operator()", "include/tensor/detail/tensor_base.hpp:at", "include/tensor/detail/common.h:normalize_index", "include/tensor/detail/refcount.hpp:RefPointer", "include/tensor/detail/sparse_base.hpp:safe_size", "src/indices/surrounding_dimensions.cc:surrounding_dimensions"]}
{"id": "C78", "title": "Datasets of jobs", "statement": "A record of a dataset (Job::open_dataset) which exists is complete and is never changed: any number of processes may do jobs at the same time, and be stopped at any moment, and a job that is started again after a stop writes its record. Jobs with different numbers have different records.", "quantifier": "all executions of any number of processes, all job numbers, all variables, all stopping points", "why_tests_cant": "There is no test of datasets, and the outcome depends on the order in which processes run and on where they stop.", "anchors": ["src/tools/jobs_dataset.cc:Job::open_dataset", "src/tools/jobs_dataset.cc:Job::dataset_record_exists", "src/sdf/data_file.cc:DataFile", "src/sdf/odata_file.cc:OutDataFile", "src/sdf/rename_file.cc:rename_file", "include/tensor/jobs.h:dataset"]}
{"id": "C79", "title": "Files read in Python", "statement": "The file which OutDataFile writes is read by the Python module sdf.py: load gives a dictionary which has, under the name of every variable, an array with the dimensions and the elements (bit by bit) of the tensor or number that was dumped.", "quantifier": "all lists of variables of all types, all names, tensors of all dimensions, files cut at any point", "why_tests_cant": "There is no test of sdf.py (nor does any test read a file in another language), and what it does with names, ranks, unfinished files or the other order of bytes depends on the bytes of each file.", "anchors": ["python/sdf.py:SDF.load", "python/sdf.py:SDF.load_record", "python/sdf.py:SDF.load_tensor", "python/sdf.py:SDF.load_tag", "src/sdf/odata_file.cc:OutDataFile::dump"]}
{"id": "C80", "title": "Datasets read in Python", "statement": "load_dataset combines the files of a directory: every variable of the files becomes an array with one index more, the last one, and the element (i,j,...,k) is the element (i,j,...) of the variable in the k-th file.", "quantifier": "all numbers of files, all variables and dimensions, all orders of the directory, unfinished files", "why_tests_cant": "There is no test of sdf.py, and the outcome depends on which file the directory lists first and on files which processes left unfinished.", "anchors": ["python/sdf.py:load_dataset", "python/sdf.py:combine_dataset", "src/tools/jobs_dataset.cc:Job::open_dataset"]}
{"id": "C81", "title": "Iterative methods with sparse matrices", "statement": "cgs, eig_power_right and eig_power_left of a sparse matrix do what they do for the same dense matrix: the same iterates, the same result, the same number of steps, and an error in the same cases.", "quantifier": "all sparse matrices, right hand sides, starting vectors, tolerances and numbers of iterations", "why_tests_cant": "The tests of cgs and eig_power use dense matrices and functions only; each run is a whole iteration whose steps depend on the numbers.", "anchors": ["src/linalg/cgs_sp_d.cc:cgs", "src/linalg/cgs_sp_z.cc:cgs", "src/linalg/eig_power_sp_d.cc:eig_power_right", "src/linalg/eig_power_sp_d.cc:eig_power_left"]}
{"id": "C82", "title": "Real and imaginary parts", "statement": "real, imag and conj act element by element, a complex tensor or sparse matrix is recovered from its parts with to_complex, and a real one becomes a complex one with the same elements and imaginary part zero.", "quantifier": "all tensors and sparse matrices, all dimensions of both arguments of to_complex", "why_tests_cant": "The tests take the parts of random tensors and sparse matrices of a few sizes; none calls to_complex with two tensors, where the dimensions of the second decide what memory is read.", "anchors": ["src/tensor/tensor_to_complex.cc:to_complex", "src/tensor/tensor_real_z.cc:real", "src/tensor/tensor_imag_z.cc:imag", "src/tensor/tensor_conj.cc:conj", "src/sparse/sparse_d_to_z.cc:to_complex"]}
{"id": "C83", "title": "Text of tensors", "statement": "The text which << writes of a vector, tensor or matrix_form tells its dimensions and its elements: two with the same text have the same dimensions and the same text of each element in its place.", "quantifier": "all vectors, indices, tensors and matrices, all texts of elements", "why_tests_cant": "The tests print tensors only to describe a failure and compare no text; that no two different tensors have the same text is a statement on all pairs of tensors.", "anchors": ["include/tensor/detail/io.hpp:operator<<", "src/views/matrix_form.cc:MatrixForm::display"]}
{"id": "C84", "title": "Results which are not numbers", "statement": "If an element of a tensor is not a number (NaN), then sum, mean, norms, scalar products, maxima and minima of the tensor, and the solution of cgs with it, are not numbers; if none is, and there is no overflow, then they are numbers.", "quantifier": "all tensors of doubles, with NaN, infinities, zeros with sign, subnormal numbers, at any place; all roundings to nearest", "why_tests_cant": "No test has an element which is NaN or infinite. The tests of the solvers compare norm0 of a difference with a tolerance, which holds if the difference is NaN in all places.", "anchors": ["src/tensor/tensor_sum_d.cc:sum", "src/tensor/tensor_mean_d.cc:mean", "src/tensor/tensor_norm0_d.cc:norm0", "src/tensor/tensor_norm2_d.cc:norm2", "src/tensor/tensor_max_d.cc:max", "src/tensor/tensor_min_d.cc:min", "src/tensor/matrix_norminf_d.cc:matrix_norminf", "src/linalg/cgs.cc:cgs"]}
{"id": "C85", "title": "Rounding errors of sums and norms", "statement": "sum, mean, scprod and norm2 of n doubles differ from the exact value at most by n, or a few more, units of rounding times the sum of the absolute values, and are finite if the exact value is far from the largest double.", "quantifier": "all tensors of doubles of any size, all roundings to nearest", "why_tests_cant": "The tests call norm2 once, on eigenvectors, and the others not at all; the bounds are statements on all numbers and sizes, and the overflow of squares in norm2 needs numbers above 2^512, which no test has.", "anchors": ["src/tensor/tensor_sum_d.cc:sum", "src/tensor/tensor_mean_d.cc:mean", "include/tensor/tensor.h:scprod", "src/tensor/tensor_norm2_d.cc:norm2"]}
{"id": "C86", "title": "Evenly spaced vectors of doubles", "statement": "linspace(a, b, n) begins with a, ends with b, its elements are between a and b in their order, and each is the exact point up to a few units of rounding.", "quantifier": "all finite doubles a, b, all numbers of points, all roundings to nearest", "why_tests_cant": "The tests use linspace with small integers, to make tensors for other functions; which ends are missed depends on the digits of the step.", "anchors": ["src/indices/linspace_d.cc:linspace"]}
{"id": "C87", "title": "Files read in Matlab", "statement": "A file written by OutDataFile is read by sdf_load of Matlab as a struct with one field for each name: a variable which was written once with its dimensions and elements, several variables with the same name as an array with a new last index, which counts them.", "quantifier": "all sequences of variables, dimensions, elements and names, and all values of Matlab's global variables before the call", "why_tests_cant": "There is no test of the functions of Matlab. Which names, dimensions and sequences of records make the reader stop, fail or mix variables is a question on all files which the library can write.", "anchors": ["matlab/sdf_load.m:sdf_load", "matlab/sdf_load_record.m:sdf_load_record", "matlab/sdf_load_record.m:sdf_load_tag", "matlab/sdf_load_record.m:sdf_load_tensor", "src/sdf/odata_file.cc:OutDataFile::dump"]}
{"id": "C88", "title": "Datasets read in Matlab", "statement": "sdf_load_dataset(directory) reads all files of the directory as if their variables were in one file, and its result depends on the files only.", "quantifier": "all directories, all files written by OutDataFile, all earlier calls in the same session", "why_tests_cant": "There is no test of the functions of Matlab. The result depends on global variables which earlier calls have left, so that one call on one directory does not show it.", "anchors": ["matlab/sdf_load_dataset.m:sdf_load_dataset", "matlab/sdf_load_dataset.m:sdf_load_one"]}
{"id": "C89", "title": "Elapsed times", "statement": "toc() is the time in seconds since the last call of tic(), and toc(w) the time since the call of tic() which returned w, up to one microsecond; neither is negative.", "quantifier": "all times of the clock from 1970 to 2038, all sequences of calls before and between, every rounding to nearest", "why_tests_cant": "There is no test of tic and toc, and none could fix the clock. That a sum and a difference of rounded numbers with 31 bits before the point are right to a microsecond, and never negative, is a question on all pairs of times.", "anchors": ["src/tools/tictoc.cc:tic", "src/tools/tictoc.cc:toc", "src/tools/tictoc.cc:now"]}
{"id": "C90", "title": "Directories", "statement": "isdir(name) is true exactly if there is a directory with the name. make_directory(name, mode) returns true exactly if it made a new directory, with the permissions of the mode, and changes nothing otherwise.", "quantifier": "all contents of the file system, all modes of files", "why_tests_cant": "There is no test of isdir or make_directory. Whether one bit of the mode tells a directory from every other kind of file is a question on all modes.", "anchors": ["src/sdf/isdir.cc:isdir", "src/sdf/make_directory.cc:make_directory"]}
{"id": "C91", "title": "NaN in comparisons and sorting", "statement": "Comparisons of real tensors with tensors and numbers follow IEEE 754 element by element, also for NaN, infinities and both zeros, and all_equal is true exactly if all elements are equal for ==. sort and sort_indices put all numbers in order.", "quantifier": "all real tensors and numbers with any special values, all six operators, number on either side, both directions of sorting", "why_tests_cant": "The tests sort and compare small numbers. With NaN the effect of std::sort is undefined, so that no observed result says what another compiler or another length would give.", "anchors": ["src/compare/rtensor_double_*.cc", "src/compare/rtensor_rtensor_*.cc", "include/tensor/tensor.h:operator<, <=, >, >= (double, RTensor)", "src/tensor/tensor_sort_d.cc:sort", "src/tensor/tensor_sort_d.cc:sort_indices"]}
{"id": "C92", "title": "Which eigenvalues Arpack keeps", "statement": "In each iteration of Arpack the values which are kept are asked for (largest magnitude, smallest real part, ...) at least as much as all those which are given up; no value is lost and each keeps its error estimate. For real matrices which are not symmetric, complex conjugate values are kept or given up together.", "quantifier": "all lists of Ritz values and error estimates of any length, all numbers of eigenvalues, all orders", "why_tests_cant": "The choice is made by a sorting routine inside of the iteration, whose input are the approximations of each iteration. Tests see only the final eigenvalues of a few matrices, which may be right although a wrong value was kept.", "anchors": ["src/arpack-ng/dsgets.f", "src/arpack-ng/zngets.f", "src/arpack-ng/dngets.f", "src/arpack-ng/dsortr.f", "src/arpack-ng/zsortc.f", "src/arpack-ng/dsortc.f"]}
{"id": "C93", "title": "Convergence of the eigenvalues which Arpack returns", "statement": "When the iteration ends, the eigenvalues which are returned are those of the values asked for most whose error estimate is small enough, in order, and if no failure is reported these are as many as were asked for. A failure is reported only if fewer have converged.", "quantifier": "all lists of Ritz values and error estimates, all tolerances, all numbers of eigenvalues, all orders, in each iteration", "why_tests_cant": "The values are sorted again after the test of convergence, four times, and only for special lists of values is the result not the one which was tested; these lists come up inside of the iteration and a test cannot set them.", "anchors": ["src/arpack-ng/dsaup2.f:482-666", "src/arpack-ng/znaup2.f:458-631", "src/arpack-ng/dsconv.f"]}
{"id": "C94", "title": "Products of large tensors", "statement": "fold, foldc, foldin and mmult of tensors which fit in memory, and whose result does, give the contraction of the two tensors, however large the dimensions are.", "quantifier": "all dimensions, positions and elements; integers of BLAS of any number of bits; overflow which wraps or is undefined", "why_tests_cant": "Tensors with 2^31 elements or more do not fit in a unit test, and below that no size behaves differently.", "anchors": ["src/tensor/tensor_fold.cc:31-161", "src/tensor/tensor_foldin.cc:31-110", "src/tensor/gemm.cc:30-80", "include/tensor/tensor_blas.h:84-125"]}
{"id": "C95", "title": "Rounding errors of contractions", "statement": "Each element of fold, foldin and mmult of tensors of doubles differs from the exact contraction by at most n roundings of the sum of the absolute values of its n products, whichever library does the sums. An element one of whose factors is not a number is not a number.", "quantifier": "all tensors of doubles, positions and lengths; all orders of the sums, with and without fused operations; all roundings to nearest", "why_tests_cant": "The order of the sums depends on the library, the machine and the sizes; a test sees one of them, with a few numbers.", "anchors": ["src/tensor/tensor_fold.cc:101-160", "src/tensor/tensor_foldin.cc:93-109", "src/tensor/gemm.cc:30-46"]}
{"id": "C96", "title": "Copies in different threads", "statement": "A program in which each thread uses only its own variables gives the same results whatever the order of the steps of the threads: the values of the variables of a thread depend on its own statements only, no released memory is used, and all memory is released, even if some of the variables are copies of the same tensor.", "quantifier": "all programs of copies, assignments, reads, writes and destructions; any number of threads; all orders of the memory accesses", "why_tests_cant": "A test runs the threads in a few of the possible orders; errors happen rarely and depend on the machine.", "anchors": ["include/tensor/detail/refcount.hpp:55-57", "include/tensor/detail/refcount.hpp:106-150"]}
{"id": "C97", "title": "Ranges and views kept in variables", "statement": "Ranges and views may be kept in variables: a view is always the slice of the tensor as it was when the view was made, however often it is converted and whatever happens to the tensor in between; assigning to a mutable view is assigning to the slice of the tensor; range objects are never used after they were deleted, and none is left when the views have ended.", "quantifier": "all programs of declarations, assignments and ends of lifetime of tensors, ranges, views and mutable views", "why_tests_cant": "A test has a few of the possible orders of statements, and uses of deleted objects often go unnoticed.", "anchors": ["include/tensor/indices.h:186-206", "include/tensor/detail/tensor_slice.hpp:28-86", "src/tensor/tensor_view.hpp:30-282", "src/views/range.cc:261-317"]}
{"id": "C98", "title": "Contractions of several tensors", "statement": "A network of tensors may be contracted in any order: fold(fold(A,i,B,j),k',C,l) and fold(A,i,fold(B,k,C,l),j') are the same tensor; exchanging the operands of fold exchanges the groups of indices of the result; matrices applied with foldin to an index compose as their product, commute when they act on different indices, the identity does nothing and a diagonal matrix is scale; kron(B,A) acts on a matrix written as a vector as A X B^T.", "quantifier": "all tensors of any rank and dimensions, all positions of the indices, over any commutative semiring", "why_tests_cant": "Each law relates several calls for every rank, choice of indices and size; tests compare a few shapes.", "anchors": ["src/tensor/tensor_fold.cc:28-131", "src/tensor/tensor_foldin.cc:31-110", "src/tensor/tensor_scale.cc:29-60", "src/tensor/tensor_kron.hpp:28-84", "src/tensor/matrix_trace.cc:24-36"]}
{"id": "C99", "title": "References and iterators kept in variables", "statement": "A reference `double &x = t.at(i)`, a `const double &x = t[i]` or an iterator kept in a variable stands for element i of t for as long as documented rules allow: until t is destroyed, resized or assigned to; for writing until t is copied; for reading until t is written to. Used that way no other vector changes, nothing released is accessed and the value is that of the element. `t.at(j) = u[i]` is always safe, also if t and u share memory.", "quantifier": "all programs made of vectors, references and iterators, with any number of copies", "why_tests_cant": "Whether a reference is stale, aliases a copy or dangles depends on which copies are alive at that moment; every short test with no copy alive passes.", "anchors": ["include/tensor/refcount.h:66-101", "include/tensor/detail/refcount.hpp:116-150", "include/tensor/vector.h:60-79"]}
{"id": "C100", "title": "Vectors over arrays of the caller", "statement": "`Vector(n, data)` is a window on the array of the caller: reading it gives the elements of the array, writing to it changes the array, what the caller writes into the array is seen, the library never releases the array, and all other vectors, copies included, are independent of it.", "quantifier": "all programs in which vectors are made over arrays, copied, assigned, written and destroyed while the caller reads, writes and releases the arrays", "why_tests_cant": "Whether a write reaches the array depends on the copies which happen to be alive anywhere in the program.", "anchors": ["include/tensor/vector.h:48-51", "include/tensor/detail/refcount.hpp:101-104", "include/tensor/detail/refcount.hpp:116-150", "src/arpack/arpack_t.cc:293-301"]}
{"id": "C101", "title": "Memory of the iterative solvers", "statement": "cgs, eig_power_left, eig_power_right and eigs release everything which they hold when they return: after the call no copy of the matrix is left, whatever the function of the caller does meanwhile, and a program which destroys its matrices has released all memory.", "quantifier": "all programs made of operations on vectors and calls of solvers, nested in any way", "why_tests_cant": "The results of a call are right whether or not memory is lost; only long running programs notice.", "anchors": ["src/linalg/cgs.cc:62", "src/linalg/eig_power.hpp:66", "src/arpack/eigs_map_d.cc:29-89", "src/arpack/eigs_sp_d.cc:32", "include/tensor/map.h:34-52", "include/tensor/linalg.h:69", "include/tensor/linalg.h:195"]}
{"id": "C102", "title": "Contractions of complex doubles", "statement": "The real and the imaginary part of each element of fold, foldc, foldin and mmult of complex tensors are finite, and differ from those of the exact sum by at most 2 n roundings of the sum of the absolute values of the products in them (n is the length of the contracted index) and 2 n underflows, whichever order and fused operations the library uses, if these sums are far from overflow.", "quantifier": "all tensors, positions and BLAS libraries with the products of the definition", "why_tests_cant": "Tests compare a few small matrices with a tolerance chosen by hand; they cannot try all orders of additions, and cancellation between the two products in a real part is rare.", "anchors": ["src/tensor/tensor_fold_z.cc:39-80", "src/tensor/tensor_fold.cc:100-157", "src/tensor/tensor_foldin_z.cc:34-40", "src/tensor/gemm.cc:47-80"]}
{"id": "C103", "title": "Vectors when memory is exhausted", "statement": "If an operation on vectors is left by std::bad_alloc then no vector has changed, the program may go on, and all later operations behave as if the failed one had not been there; except for resize, nothing is undefined, and the memory lost is at most one block for each failure.", "quantifier": "all histories of operations on vectors, with any of the allocations failing", "why_tests_cant": "Tests never run out of memory; which of the two allocations of an operation fails, and whether other vectors share the data at that moment, depends on the history.", "anchors": ["include/tensor/detail/refcount.hpp:49-53", "include/tensor/detail/refcount.hpp:76-104", "include/tensor/detail/refcount.hpp:128-141", "include/tensor/vector.h:33-79"]}
{"id": "C104", "title": "Rounding in the product of a sparse matrix and a tensor", "statement": "Each element of mmult(S, T) of doubles or complex numbers is the sum of the products with the stored elements of a row, in the order of their columns and starting from zero. It differs from the exact value by at most one rounding per stored element, relative to the sum of the absolute values of the products, whatever the number of columns; NaN among the factors gives NaN, and elements of T which meet no stored element are never used.", "quantifier": "all valid sparse matrices and all tensors of doubles or complex numbers", "why_tests_cant": "Tests compare a few random products with the full ones up to a tolerance; the bound over all values, sizes and patterns, and the effect of NaN and infinities at places which are not stored, cannot be sampled.", "anchors": ["src/sparse/mmult_sparse_tensor.h:26-109"]}
{"id": "C105", "title": "Arithmetic of sparse matrices of doubles", "statement": "The sum, the difference and the product by elements of sparse matrices of doubles or complex numbers have the elements of the same operation on full(A) and full(B), with the rounding, infinities and NaN of the full operation; only the sign of zeros may change. No result stores a zero (of either sign) and NaN is stored. Changing the sign and conversion to a sparse matrix and back have the same guarantee, and so have the product with a finite number and the quotient with a number other than zero and NaN.", "quantifier": "all valid sparse matrices of doubles or complex numbers, all pairs of the same dimensions", "why_tests_cant": "Tests use random matrices whose numbers have inverses and no NaN or signed zeros; the comparison with zero of NaN and of the negative zero, and pairs of elements which cancel, need all values.", "anchors": ["src/sparse/sparse_binop.hpp:27-113", "include/tensor/detail/sparse_base.hpp:160-200", "src/generated/sparse_times_tn_double.cc", "src/generated/sparse_divide_tn_double.cc", "src/generated/sparse_minus_t1_double.cc"]}
{"id": "C106", "title": "Slices in machine words", "statement": "Making a view, reading it, and assigning a number, a tensor or another view to it compute with 64 bit integers exactly what C11 and C12 say, and no intermediate product of limits, factors and steps and no sum of positions overflows, for any tensor without empty dimensions which fits in memory, if no step is larger than its dimension and no list has more indices than its dimension.", "quantifier": "all such tensors, all valid ranges, any number of dimensions, whatever an overflow would do", "why_tests_cant": "Tensors near the limits of memory cannot be created in tests, and an overflow in an intermediate product or in the addition after the last element is not visible in the results of small ones.", "anchors": ["src/views/range.cc:69-317", "src/tensor/tensor_view.hpp:30-282"]}
{"id": "C107", "title": "Sorting data sets in Matlab", "statement": "sdf_sort_1d(record, fields) moves all fields of a data set together, along their last index, so that the given fields are in increasing order (the first one which differs decides, equal ones keep their order). sdf_sort_2d(record, x, y, rows, cols) arranges a data set whose files form a grid of values of x and y: the last index of each field is replaced by two, which number the values of x and of y in increasing order.", "quantifier": "all records, numbers and shapes of fields, orders of files, and grids", "why_tests_cant": "A test has a few fields and files; an order which goes wrong only for ties, for unevenly spaced values, for grids which are not square, or a field which is moved differently from the others gives data which look plausible.", "anchors": ["matlab/sdf_sort_1d.m:1-24", "matlab/sdf_sort_2d.m:1-51"]}
{"id": "C108", "title": "Variables of jobs in data sets", "statement": "If every job of a program saves its variables with Job::dump_variables in a file of its own, each file has all declared variables with the values which the job sees (get_value), and loading them in order gives these values back. A data set of some of the files, in any order, which is loaded in Python has for each variable one array with a value per file, and load_sorted_dataset(path, field) puts the same files in increasing order of the field.", "quantifier": "all declarations of variables, numbers of jobs, subsets and orders of the files, and fields", "why_tests_cant": "The path from the arguments of a program through a loop over jobs and a binary format to another language has no test; a mistake in the order of the values would give arrays which look plausible and belong to other jobs.", "anchors": ["src/tools/jobs_save.cc:24-30", "python/sdf.py:18-35", "src/tools/jobs.cc:53-338", "include/tensor/jobs.h:50-73"]}
{"id": "C109", "title": "Random tensors and sparse matrices", "statement": "Tensor::random(dims) has these dimensions and its elements, in the order in which they are stored, are the next numbers of the generator, in [0,1); a complex element uses two of them. RSparse::random(rows, cols, density) with a density in (0,1] is a valid sparse matrix whose elements are zero where the number r of the generator is zero or larger than the density, and r / density, in (0,1], elsewhere, so that the part of the numbers which give an element which is not zero is the density. No zeros are stored.", "quantifier": "all states of the generator, dimensions and densities (NaN, infinities, zeros and negative numbers included), and all roundings of the quotient", "why_tests_cant": "Tests of random data look at sizes and perhaps ranges of one run. That the tensor has the numbers of the sequence in order, that no quotient leaves the interval or becomes zero by rounding, and which densities break the function are statements about all states.", "anchors": ["include/tensor/detail/tensor_base.hpp:366-427", "include/tensor/detail/sparse_base.hpp:254-270", "src/rand/rand.cc:100-127"]}
{"id": "C110", "title": "round() of tensors", "statement": "round(t) has the dimensions of t and each element is the integer nearest to that of t, halfway cases away from zero, as a double with the sign of the argument (so -0.3 gives -0). NaN and infinities stay. Integers and all numbers of absolute value at least 2^52 are unchanged, round(round(t)) is round(t), round(-t) is -round(t) and round is monotone. Complex numbers are rounded part by part.", "quantifier": "all tensors and all doubles, NaN, infinities and both zeros included", "why_tests_cant": "Tests try a few numbers. Whether every result is an integer which a double can hold, that there is no double for which the nearest integer is missed and that the function is monotone and odd concern all 2^64 doubles.", "anchors": ["src/tensor/tensor_round_d.cc:27-54", "include/tensor/numbers.h:79-88"]}
{"id": "C111", "title": "Functions with parameters", "statement": "with_args(f, p1, ..., pk) is a function of one argument x which computes f(x, p1, ..., pk). Parameters given by value are those of the moment at which with_args is called, whatever happens to the variables later, and also for copies of the closure; pointers are followed at each call. A FunctionMap of a closure gives the same results while the closure lives. cgs, eig_power and eigs may be called with a temporary closure; but a FunctionMap of a temporary closure must not be kept.", "quantifier": "all programs of assignments, closures, copies, ends of scopes, maps, calls and solvers, with any number of closures, maps and parameters", "why_tests_cant": "A test calls a closure right after it was made, with parameters which do not change, and a dangling reference to a temporary often still finds the old contents. That no sequence of assignments, copies and ends of scopes changes the parameters concerns all programs.", "anchors": ["include/tensor/map.h:45-158", "include/tensor/linalg.h:64-70", "include/tensor/linalg.h:127-133", "include/tensor/linalg.h:188-197"]}
{"id": "C112", "title": "Index arithmetic and pointers of permute, transpose, adjoint and kron", "statement": "permute, transpose, adjoint and kron compute sizes, strides and positions with `index` of 64 bits without overflow, so that their results are those of unbounded numbers, and move pointers only within arrays, or to the position after the last element, as the language requires.", "quantifier": "all tensors whose size (for kron, the size, rows and columns of the result) is less than 2^63, all indices, with and without elements", "why_tests_cant": "Tensors at the limits of 64 bits cannot be allocated in a test, tensors without elements but with huge dimensions are not tried, and a pointer beyond the end of an array which is not used leaves no trace in a test, but a compiler may rely on it not existing.", "anchors": ["src/tensor/tensor_permute.cc:26-193", "src/tensor/matrix_transpose.cc:25-35", "src/tensor/matrix_adjoint.cc:25-45", "src/tensor/tensor_kron.hpp:34-80", "src/indices/indices.cc:38-55"]}
{"id": "C113", "title": "Sizes and workspaces given to LAPACK", "statement": "svd, solve, eig and eig_sym call LAPACK with arguments and arrays as in its manual for every matrix, whatever the width of the integers of the library is: the result is that of the whole matrix, or the program stops.", "quantifier": "all matrices and right hand sides with dimensions less than 2^63, integers of LAPACK of 32 and 64 bits, all answers about the workspace", "why_tests_cant": "A test cannot allocate a matrix with 2^31 rows or a workspace with 2^31 elements, and the width of the integers depends on the library which the tests were linked with.", "anchors": ["src/linalg/svd_d.cc:58-105", "src/linalg/svd_z.cc:52-102", "src/linalg/solve_d.cc:39-91", "src/linalg/solve_z.cc:33-84", "src/linalg/eig_d.cc:57-100", "src/linalg/eig_z.cc:60-101", "src/linalg/eig_sym_d.cc:50-75", "src/linalg/eig_sym_z.cc:52-80", "include/tensor/tensor_blas.h:86-125"]}
{"id": "C114", "title": "+=, -=, *=, /= and shared data", "statement": "a += b, a -= b, a *= b and a /= b, with b a tensor, a number or an element of a tensor, combine the old elements of a with the old value of b, change no other tensor, and give a reference to a: whatever tensors share data, whichever order the arguments are evaluated in.", "quantifier": "all programs made of these operators and of operations on tensors, all ways to share data among them, all orders of evaluation", "why_tests_cant": "The result of a -= a[0] depends on whether some other tensor shares the data of a, which no test that looks at values controls; the order of evaluation is chosen by the compiler; programs and ways of sharing are unlimited.", "anchors": ["include/tensor/detail/tensor_ops.hpp:142-195", "include/tensor/detail/functional.h:82-116", "include/tensor/detail/refcount.hpp:128-135", "include/tensor/vector.h:60-72"]}
{"id": "C115", "title": "Seeds of the random numbers", "statement": "Different seeds give different random numbers: any 312 numbers in a row determine the seed given to set_seed, or the word that rand_reseed read from the system, however many numbers were drawn before. RANDSEED=n in the environment is set_seed(n), whatever the system and the clock say, and what the generator did before does not matter.", "quantifier": "all pairs of seeds, all states of the generator before, all positions in the sequence, all contents of the environment", "why_tests_cant": "There are 2^64 seeds, and that no two of them lead to the same numbers after any number of draws, or after the 6240 numbers which are thrown away, is a statement about all pairs; a test sees the environment of one machine.", "anchors": ["src/rand/rand.cc:34-102", "src/rand/rand64.cc:75-144"]}
{"id": "C116", "title": "Sizes and arrays given to Arpack", "statement": "eigs of a matrix or of a function gives the eigenvalues of the operator it was given, whatever its size: the arrays given to Arpack have the sizes which its manual requires, and no size overflows or is cut before Arpack is called.", "quantifier": "all sizes, all numbers of eigenvalues, all widths of the integers of Arpack, real and complex problems, all libraries, all functions", "why_tests_cant": "Sizes overflow from 107374183 elements on with integers of 32 bits, with arrays of 16 GB, which no test makes; and that every object which is made is right is a statement about all sizes.", "anchors": ["src/arpack/arpack_t.cc:58-116", "src/arpack/arpack_t.cc:179-204", "include/tensor/arpack_d.h:86-113", "src/arpack/eigs_d.cc:65-86", "src/arpack/eigs_map_d.cc:65-85"]}
{"id": "C117", "title": "Lengths and strides given to FFTW", "statement": "fftw and fftw_inplace transform all the elements of the tensor, whatever its dimensions: no length and no stride changes when it is converted to the int of the interface of FFTW.", "quantifier": "all dimensions, all choices of indices, all tensors, all widths of int, both directions, in place or not", "why_tests_cant": "Lengths and strides stop being an int at 2^31 elements, which are 32 GB of complex numbers; that all the dimensions below this limit are right, and that a stride which does not fit may be harmless, is a statement about all lists of dimensions.", "anchors": ["src/fftw/fftw_common.cc:26-108", "src/fftw/fftw.cc:27-67", "src/fftw/fftw_inplace.cc:25-43"]}
{"id": "C118", "title": "Sizes of sparse matrices with many rows or columns", "statement": "kron, full and mmult of sparse matrices give the right result, or stop if there is no memory for it, whatever the numbers of rows, columns and stored elements: no size overflows.", "quantifier": "all consistent sparse matrices with any numbers of rows, columns and elements; real and complex elements; overflows which are undefined or wrap", "why_tests_cant": "Sizes overflow at 2^63, for example in the product of two matrices with one row, one element and 2^40 columns. That no intermediate column overflows if the last one does not is a statement about all matrices.", "anchors": ["src/sparse/sparse_kron.hpp:26-64", "include/tensor/detail/sparse_base.hpp:204-224", "src/sparse/mmult_sparse_tensor.h:80-109"]}
{"id": "C119", "title": "Scalar products and norms with any compiler", "statement": "scprod, norm2 and mmult of a sparse matrix and a tensor give the exact result up to a few roundings, whether or not the compiler fuses products and sums. scprod(x,x) is real and not negative, and norm2 is NaN only if an element is.", "quantifier": "all tensors and sparse matrices of real and complex doubles; all choices of operations which are fused; all roundings to nearest", "why_tests_cant": "The library is compiled without a flag against fused operations, so that results depend on the processor. A test runs on one processor. There are 2^n ways to fuse the operations of a sum of n products.", "anchors": ["src/tensor/tensor_norm2_d.cc:24-36", "src/tensor/tensor_norm2_z.cc:24-36", "src/sparse/mmult_sparse_tensor.h:27-109"]}
{"id": "C120", "title": "Data files between machines", "statement": "A data file which is opened on another machine is either refused or read as it was written, whatever the sizes of int, long and size_t and the order of bytes of the two machines.", "quantifier": "all pairs of machines (sizes of int, long and size_t, order of bytes, memory); all sequences of tensors and vectors of tensors, real and complex, with all names", "why_tests_cant": "Tests write and read files on one machine. The sizes of types and the order of bytes are fixed when the test is compiled.", "anchors": ["src/sdf/odata_file.cc:174-224", "src/sdf/odata_file.cc:254-263", "src/sdf/idata_file.cc:154-219", "src/sdf/idata_file.cc:263-284", "include/tensor/vector.h:31"]}
{"id": "C121", "title": "Any number of copies of a tensor", "statement": "Vectors and tensors may be copied and assigned as often as there is memory: copies are independent values, whatever the number of those which share their data.", "quantifier": "all histories of operations on vectors, of any length", "why_tests_cant": "The counter of references is an int. To reach its limit a test needs 2^31 copies of one vector, which takes 16 GB and more.", "anchors": ["include/tensor/detail/refcount.hpp:55-57", "include/tensor/detail/refcount.hpp:106-120", "include/tensor/detail/refcount.hpp:143-150", "include/tensor/refcount.h:86"]}
{"id": "C122", "title": "Tensors when memory is exhausted", "statement": "An operation on tensors and lists of indices for which there is no memory throws an exception and leaves all variables as they were, whatever data they share; the program may go on with them. No memory is lost, and each tensor has as many elements as its dimensions say.", "quantifier": "all programs with constructors, copies, assignments, reshaping, element access, fill_with and elementwise arithmetic of tensors, Indices and vectors; all failures of `new` in them", "why_tests_cant": "An exception may come from each of the allocations of a constructor, while parts of the tensor exist and others do not, and depends on which tensors share data at this moment; a test can make only few of these fail.", "anchors": ["include/tensor/detail/tensor_base.hpp:36-136", "include/tensor/detail/tensor_base.hpp:205-218", "include/tensor/detail/tensor_base.hpp:289-292", "include/tensor/detail/tensor_ops.hpp:48-83", "include/tensor/detail/refcount.hpp:49-53", "include/tensor/detail/refcount.hpp:76-141", "include/tensor/tensor.h:291-292"]}
{"id": "C123", "title": "Laws between matrix functions", "statement": "With exact arithmetic, and matrices with rows and columns: kron is associative, additive, commutes with transpose and adjoint, and maps identities to identities; trace is linear, does not change under transpose, and trace(kron(A,B)) = trace(A) trace(B); scale(A,-1,v) = mmult(A,diag(v)), scale(A,0,v) = mmult(diag(v),A); fold(A,0,B,0) = mmult(transpose(A),B), fold(A,-1,B,-1) = mmult(A,transpose(B)), foldc(A,0,B,0) = mmult(adjoint(A),B); scprod(A,B) = trace(mmult(adjoint(B),A)). norm2 satisfies the inequality of Cauchy and Schwarz and the triangle inequality, norm2 and matrix_norminf of products are at most the products of the norms, of Kronecker products they are equal to them, and norm0(mmult(A,B)) <= matrix_norminf(A) norm0(B).", "quantifier": "all matrices (and, for norms, tensors) of all dimensions, with elements of any commutative semiring; for norms, real and complex elements", "why_tests_cant": "The functions are written independently, with their own loops over the data; equations between their results for all dimensions and elements are not settled by comparing some of them.", "anchors": ["src/tensor/tensor_kron.hpp:34-80", "src/tensor/matrix_trace.cc:24-36", "src/tensor/tensor_scale.cc:70-94", "src/tensor/matrix_diag.cc:25-53", "src/tensor/tensor_fold_d.cc:40-72", "src/tensor/tensor_fold_z.cc:40-83", "src/tensor/matrix_transpose.cc:24-35", "src/tensor/matrix_adjoint.cc:24-43", "src/tensor/tensor_norm2_d.cc:24-36", "src/tensor/tensor_norm2_z.cc:24-36", "src/tensor/matrix_norminf_d.cc:23-53", "src/tensor/tensor_norm0_d.cc:24-31"]}
{"id": "C124", "title": "Laws of slices", "statement": "For tensors with elements and ranges within them: a slice of a slice is the slice with the composed ranges; the slice with all ranges complete is the tensor itself, and t(range()) is its vector of elements; slices depend on the selected positions only, not on the kind of range. After t.at(r...) = s, where no position is repeated, t(r...) has the elements of s, and slices without common elements are as before; t.at(r...) = t(r...) changes nothing; the second of two assignments to the same slice counts; assignments to slices without common elements can be exchanged; assigning a number is assigning a tensor filled with it; assigning a slice is assigning the tensor which it gives. Slices can be exchanged with operations on each element, with permute, transpose and adjoint, and mmult(a,b)(r,q) = mmult(a(r,range()), b(range(),q)).", "quantifier": "all tensors with elements, all ranks and dimensions, all lists of ranges within the dimensions, of all kinds", "why_tests_cant": "Each law relates several calls with independent loops over ranges, for every combination of kinds of ranges, ranks and dimensions.", "anchors": ["src/views/range.cc:23-317", "src/tensor/tensor_view.hpp:30-282", "include/tensor/indices.h:105-206", "include/tensor/detail/tensor_slice.hpp:25-90"]}
{"id": "C125", "title": "Laws of sparse matrices", "statement": "With exact arithmetic, for all sparse matrices whose arrays are consistent: the sum is commutative and associative, a - a has no stored elements, a + 0 is a, and adjoint(a + b) = adjoint(a) + adjoint(b), all of them as stored arrays (so that == holds), with whatever order std::sort leaves; kron is associative and commutes with transpose and adjoint; mmult(a + b, x) = mmult(a,x) + mmult(b,x), mmult(a, x + y) = mmult(a,x) + mmult(a,y), mmult(a * k, x) = mmult(a,x) * k, mmult(eye, x) = x, mmult(kron(a,b), kron(x,y)) = kron(mmult(a,x), mmult(b,y)), scprod(mmult(a,x), y) = scprod(x, mmult(adjoint(a), y)). Two expressions with sparse matrices which mean the same matrix have the same full() and the same products with tensors.", "quantifier": "all sparse matrices of all sizes with consistent arrays and elements of a commutative semiring, all tensors of all ranks with the right first dimension", "why_tests_cant": "The two sides run different loops over different compressed rows; equality for all patterns of stored elements is not settled by examples.", "anchors": ["src/sparse/sparse_binop.hpp:sparse_binop", "src/sparse/sparse_kron.hpp:do_kron", "src/sparse/mmult_sparse_tensor.h", "src/sparse/sparse_adjoint_z.cc", "src/sparse/sparse_transpose_d.cc", "src/sparse/full_d.cc"]}
{"id": "C126", "title": "Operators and functions of all types of operands", "statement": "x + y, x - y, x * y and x / y, for every combination of real and complex tensors of the same dimensions and real and complex numbers with at least one tensor, have the sums, differences, products and quotients of the elements, with the operands in the order of the program; the result is complex exactly if an operand is. x += y and so on leave in x the value of the operator without =, and there is none which would assign complex numbers to a real tensor. Tensors of different sizes stop the program, and so do a real and a complex tensor of different dimensions. abs, cos, cosh, exp, log, sin, sinh, sqrt, tan and tanh have the function of their name of each element, real for real tensors. The same holds for the operators which are declared for sparse matrices: +, - and * between matrices, * with a number on either side, / by a number, and -.", "quantifier": "all operators and functions, all combinations of types of operands, all tensors of all ranks, all sparse matrices with consistent arrays, all real and complex elements (exact arithmetic)", "why_tests_cant": "Each combination of types is a different function in a file of its own or a different instance of a template, with its own order of operands; tests use some of them with some numbers.", "anchors": ["src/generated/tensor_plus_tt_double.cc", "src/generated/tensor_minus_tn_cdouble.cc", "src/generated/tensor_unop_sqrt_z.cc", "src/generated/sparse_minus_tr_cdouble.cc", "src/generated/sparse_times_zt_double.cc", "include/tensor/detail/tensor_ops.hpp", "include/tensor/detail/functional.h"]}
{"id": "C127", "title": "Laws of Fourier transforms", "statement": "With exact arithmetic and the transforms which FFTW's manual defines, for a tensor with at least one index and a choice of indices of dimensions other than zero: the transform of the conjugate is the conjugate of the transform in the other direction; the transform in the other direction is the transform at the opposite frequencies, n - k for k along each of the chosen indices; the transform of real numbers has conjugate elements at opposite frequencies; two transforms in the same direction give the original with the chosen indices reversed, times the number of elements along them; the product by elements of the transforms of two tensors, transformed back, is their cyclic convolution along the chosen indices times that number; and fftshift before a transform multiplies each element of the transform by the root of unity of the displacement.", "quantifier": "all complex tensors with at least one index, all choices of indices, both directions, fftw and fftw_inplace, all choices of indices for fftshift", "why_tests_cant": "The laws relate transforms of different tensors along several indices with strides; tests compare a few transforms of small tensors with tables.", "anchors": ["src/fftw/fftw.cc", "src/fftw/fftw_inplace.cc", "src/fftw/fftw_common.cc", "src/fftw/fftshift.cc", "include/tensor/fftw.h"]}
{"id": "C128", "title": "Finite results are accurate", "statement": "A finite result can be trusted, however near to overflow it was: if the sum, the mean, the scalar product or the norm of tensors of doubles is finite then all their elements are finite, and the result differs from the exact one by at most the roundings of its operations (C85, C119), without any condition on the size of the elements; norms need squares which are not tiny, and means fewer than 2^53 elements. The same holds for each finite part of sums and means of complex numbers; for scalar products and norms of complex numbers, one finite part means that all elements are finite. Each finite element of a product of a sparse matrix and a tensor, real or complex, has finite operands and is accurate. Each finite element of fold, foldin and mmult of real tensors is accurate, and its operands are finite but for factors of zero, which gemm may leave out. The converse is false: 2^1023 + 2^1023 - 2^1023 is infinite.", "quantifier": "all tensors of doubles including infinities and NaN, all roundings to nearest, all orders of the sums in gemm, operations fused or not", "why_tests_cant": "Tests use operands of moderate size; whether some overflow or NaN in the middle of a sum can end in a finite but wrong number is a statement about all sequences of operations.", "anchors": ["src/tensor/tensor_sum_d.cc", "src/tensor/tensor_sum_z.cc", "src/tensor/tensor_mean_d.cc", "src/tensor/tensor_norm2_d.cc", "src/tensor/tensor_norm2_z.cc", "src/tensor/tensor_fold_d.cc", "src/tensor/tensor_foldin_d.cc", "src/sparse/mmult_sparse_tensor.h"]}
{"id": "C129", "title": "Traces, means along an index and row sums of doubles", "statement": "Traces of matrices, traces over two indices of tensors and means along an index add exactly the elements which the definition names, each with the rounding errors of one sum from the left: if these elements are finite and their sum does not overflow, the result differs from the exact one by at most the roundings of its operations; if the result is finite, so are all of the elements and the result is accurate. The same holds for both parts of traces of complex numbers. The norm `matrix norminf` of a real matrix of c columns has a relative error of at most (1 + 2^-53)^(c-1) - 1. A matrix with NaN has a norm which is NaN (false: rows with NaN are left out).", "quantifier": "all tensors of doubles, all indices, all roundings to nearest", "why_tests_cant": "Tests compare with sums computed in the same way; the bound holds for all elements and sizes.", "anchors": ["src/tensor/matrix_trace.cc", "src/tensor/tensor_trace.cc", "src/tensor/tensor_mean_ndx.cc", "src/tensor/matrix_norminf_d.cc"]}
{"id": "C130", "title": "Lists of indices as tensors", "statement": "index_to_tensor gives a vector of the same length, whose numbers differ from the indices by at most 2^-53 of their size, and not at all for indices up to 2^53; the order of indices is kept, and different lists of indices give different tensors (false: 2^53 + 1 becomes the same number as a neighbour).", "quantifier": "all lists of 64-bit indices, all roundings to nearest", "why_tests_cant": "Tests use small indices, for which the conversion is exact.", "anchors": ["src/indices/to_tensor.cc"]}
{"id": "C131", "title": "Random numbers are those of the engines of the C++ library", "statement": "After set_seed(s), whatever was drawn before, the numbers of rand<unsigned long>() are exactly those which `std::mt19937_64 engine(s)` gives, for any number of draws, so that results can be reproduced by programs which use the standard library only; the generator of 32 bits gives the numbers of `std::mt19937`. A generator which was never seeded gives the numbers of a default constructed engine. The definition of these engines in the standard determines all of the numbers.", "quantifier": "all seeds, all previous states, any number of draws", "why_tests_cant": "The standard fixes the 10000th number of the default seed only; one wrong bit in a mask or a multiplier may show for other seeds or after more draws.", "anchors": ["src/rand/rand64.cc:init_genrand, genrand_int64", "src/rand/rand32.cc:init_genrand, genrand_int32", "src/rand/rand.cc:set_seed"]}
{"id": "C132", "title": "Power method in floating point", "statement": "In doubles eig_power_right, and eig_power_loop with any map, ends whatever the numbers, NaN and infinities included, and uses the map at most once more than iter. If the squares of the elements of the vectors neither overflow nor underflow, the norm of the vector which it gives differs from one by rounding only. If it ends because of the test of the residual, the value is finite, and the map of the last vector is this value times that vector up to the tolerance and rounding in each element; for a symmetric matrix there is then an eigenvalue within 2 sqrt(n) times the tolerance times the value, and the errors of the product and rounding.", "quantifier": "all maps from vectors of doubles to vectors of doubles, all starts, sizes up to 2^46, all tolerances and numbers of iterations, all roundings to nearest", "why_tests_cant": "Needs bounds for all matrices, starts and roundings; tests compare a few random matrices with a large tolerance.", "anchors": ["src/linalg/eig_power.hpp:eig_power_loop"]}
{"id": "C133", "title": "Conjugate gradients in floating point", "statement": "In doubles cgs(A,b,&x,maxiter,tol) either stops the program or ends with a vector of the size of b, whatever the numbers, NaN and infinities included, and uses the map at most maxiter + 2 times. When its test of convergence ends it, the true residual b - A x of the result is at most the tolerance in each element, up to rounding errors which grow with the number of iterations and the largest elements of all of the vectors x and r of the run.", "quantifier": "all maps and matrices, right-hand sides, starts, tolerances and numbers of iterations, all roundings to nearest, all runs whose vectors are finite", "why_tests_cant": "The test of the program looks at a vector which is updated, not at the residual; how far these move apart must be bounded for all runs. Tests start with random vectors of moderate size.", "anchors": ["src/linalg/cgs.cc:solve"]}
{"id": "C134", "title": "Laws of tensors of any rank", "statement": "With exact arithmetic and tensors of any rank: permute(t,i,j) = permute(t,j,i), permute(t,i,i) = t, exchanges of disjoint pairs of indices commute, and exchanging i and j, j and k, and i and j again exchanges i and k; permute only reorders the elements, so sum and mean do not change. trace(t,i,j) = trace(t,j,i) = trace(permute(t,i,j),i,j), trace is linear, and the traces over two disjoint pairs of indices may be computed in any order. scale along two indices may be done in any order, scale by ones does nothing, and scale(permute(t,i,j),i,v) = permute(scale(t,j,v),i,j). fold is linear in both arguments; two tensors may be contracted over one pair of indices with fold and another one with trace, or the other way round, if both pairs have equal dimensions; and a trace over two indices of one tensor may be computed before or after a contraction with another. Except for the laws about several traces and contractions, both sides of each law stop the program for the same arguments.", "quantifier": "all tensors of any rank and dimensions, all indices, also those counted from the end and those which do not exist, all commutative numbers", "why_tests_cant": "The functions are written with five nested loops and special cases for the position of the indices, which must agree with each other for all ranks; tests look at ranks up to four and compare each function with a copy of it.", "anchors": ["src/tensor/tensor_permute.cc:permute", "src/tensor/tensor_trace.cc:do_trace", "src/tensor/tensor_scale.cc:scale", "src/tensor/tensor_fold.cc:fold"]}
{"id": "C135", "title": "Lists of numbers of any types", "statement": "A list `igen << a << b ...`, `rgen << ...`, `cgen << ...` or `bgen << ...` is the vector of the numbers a, b, ..., in order, whatever types they are written in, if the type of the elements has them. Integers which a double does not have are rounded, with a relative error of 2^-53 at most; doubles lose their fraction in lists of integers. The program does not compile exactly if complex numbers are written into lists of others. `==` between a list and a vector compares sizes and numbers.", "quantifier": "all types of numbers, all numbers and lists of any length", "why_tests_cant": "The conversions are those of the language, chosen by the compiler for each type of the arguments, and depend on the value; tests have small integers.", "anchors": ["include/tensor/gen.h:StaticVector", "include/tensor/gen.h:ListGenerator", "include/tensor/gen.h:FlexiListGenerator"]}
{"id": "C136", "title": "Arithmetic with integers is exact", "statement": "Sums, differences, products, scalar products, traces, contractions (fold, mmult, and foldin except of two vectors) and products with sparse matrices of tensors whose elements are integers are the exact integers, as long as the absolute values of the terms of each sum add up to less than 2^53; so products of matrices of integers are associative. The same holds for multiples of powers of two, and for contractions, scalar products, sums and traces of complex tensors whose elements have integer parts.", "quantifier": "all tensors of doubles with integer elements (or multiples of a power of two), of all sizes, all orders of summation, fused or not", "why_tests_cant": "BLAS libraries add in any order; a test sees one library and a few numbers, and the bound is on a sum of products.", "anchors": ["src/tensor/tensor_fold.cc:do_fold", "src/tensor/tensor_foldin.cc:do_foldin_into", "src/tensor/tensor_norm2_d.cc:scprod", "src/tensor/tensor_sum_d.cc:sum", "src/sparse/mmult_sparse_tensor.h:mult_sp_t"]}
{"id": "C137", "title": "Exponentials of matrices of doubles", "statement": "expm() of a real matrix divides the matrix by a power of two so that its norm is less than one, and at least 1/4 if it was divided: each element of the scaled matrix is a finite number of absolute value at most one, and equal to the quotient unless it underflows. The result is defined for every square matrix of finite numbers, and it is an approximation of the exponential.", "quantifier": "every square matrix of finite doubles; every conforming log2, every order of the sums in BLAS and every order of the approximation", "why_tests_cant": "The tests use matrices of norm near one. The extremes of the range of doubles, the sums of rows which overflow, and the dependence on the library function log2 and on the order of the additions of BLAS cannot be tried one by one.", "anchors": ["src/linalg/expm_d.cc:46-80"]}
{"id": "C138", "title": "Laws of arithmetic for tensors of doubles", "statement": "For real tensors, exactly and with the sign of zeros, infinities and NaN: a+b equals b+a and a*b equals b*a, also between tensors and numbers; a-b equals a+(-b); -(-a) equals a; (-a)*(-b) equals a*b; (-a)*b equals a*(-b) and -(a*b); a*1, 1*a, a/1, a-0 equal a, and a+0 too but for the sign of zeros; a+a equals 2*a; a-a has zeros and a/a ones when the elements are finite (and not zero); multiplication by powers of two is exact and division by the same power undoes it when the results are normal numbers; a+transpose(a) is symmetric; scprod(a,b) equals scprod(b,a); norm2(-a) equals norm2(a); sum and norm2 never decrease when elements (absolute values) grow, also if they overflow; the sum of numbers which are not negative is at least each of them. For complex tensors a+b equals b+a and has the sums of the parts; a*b equals b*a, with compilers which follow annex G of ISO C and those which do not; norm2 of conj(a), of -a, and of a real tensor as a complex one, equals norm2(a). These do not hold: (a+b)+c equals a+(b+c); sum(transpose(a)) equals sum(a); the mean of equal numbers is that number, or lies between min and max; (a/2)*2 equals a for numbers below the normal ones; a-a is zero for infinite elements.", "quantifier": "All tensors of doubles of any dimensions, any contents including zeros with sign, infinities and NaN, and any rounding to nearest", "why_tests_cant": "Tests compare a few values; which identities survive rounding for every pair of doubles cannot be tried out, and those which fail do so for rare values only.", "anchors": ["include/tensor/detail/tensor_ops.hpp:34-195", "src/tensor/tensor_t_op_t.cc:24-34", "src/tensor/tensor_t_op_n.cc:24-42", "src/tensor/tensor_sum_d.cc:24-27", "src/tensor/tensor_mean_d.cc:23-26", "src/tensor/tensor_norm2_d.cc:24-36"]}
{"id": "C139", "title": "Real tensors as complex ones", "statement": "With exact arithmetic, it does not matter whether tensors are converted before or after a function is computed: fold, foldin (but of two vectors), mmult, kron, scale, trace, permute, transpose, sum, scprod and the operators +, - and * of tensors converted with to_complex are the converted results for the real tensors, and those of the conjugates conj(a), conj(b) are the conjugate results; the real and the imaginary part of a trace, a sum or a transpose are those of the parts. Both ways stop the program, or have no meaning, for the same arguments. In doubles, real(to_complex(a)) is a and imag(to_complex(a)) is +0, and scprod and sum of real tensors as complex ones are, to the last bit and with imaginary part +0, those of the real tensors, also when they overflow; scprod needs finite elements, and with an infinite one the imaginary part is NaN. In the same way a+b is the converted sum for all doubles, and a*b for finite ones, but that the imaginary part may be -0.", "quantifier": "all tensors of any rank and dimensions, all indices, and all conversions which respect the operations used", "why_tests_cant": "The functions are compiled from templates or separate files for real and complex numbers (tensor_fold_d.cc and tensor_fold_z.cc, tensor_norm2_d.cc and tensor_norm2_z.cc), which must agree for all dimensions and positions of indices; tests compare each with its own reference.", "anchors": ["src/tensor/tensor_fold.cc:fold", "src/tensor/tensor_to_complex.cc:25-33", "src/tensor/tensor_trace.cc:53-85", "src/tensor/tensor_permute.cc:permute", "src/tensor/tensor_norm2_z.cc:29-36"]}
