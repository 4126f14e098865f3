{
 "claims": [
  {
   "property": "C01",
   "status": "proved",
   "theorems": [
    "Verif.RefCount.c01_copies_are_independent_values",
    "Verif.RefCount.c01_negation_two_wraps_alias"
   ],
   "note": "refinement of the copy-on-write heap to independent values, for every history; external arrays must be handed over once (shown necessary)"
  },
  {
   "property": "C02",
   "status": "proved",
   "theorems": [
    "Verif.RefCount.c02_buffers_released_exactly_once",
    "Verif.RefCount.c02_nothing_left_at_the_end"
   ],
   "note": "invariant over every history"
  },
  {
   "property": "C03",
   "status": "partial",
   "theorems": [
    "Verif.SharedPtr.c03_negation_copy_deletes_twice",
    "Verif.SharedPtr.c03_negation_copy_dangles",
    "Verif.SharedPtr.c03_unshared_handles_partial"
   ],
   "note": "the property is false of the code: copying a handle does not increment the counter; proved only for handles never copied"
  },
  {
   "property": "C04",
   "status": "proved",
   "theorems": [
    "Verif.Tensor.c04_read",
    "Verif.Tensor.c04_bijection",
    "Verif.Tensor.c04_norm"
   ],
   "note": "all ranks 1-6, all dimensions and indices; for writing see C05"
  },
  {
   "property": "C05",
   "status": "proved",
   "theorems": [
    "Verif.Tensor.c05_write",
    "Verif.Tensor.c05_write_one_index",
    "Verif.Tensor.c05_read_after_write"
   ],
   "note": "one-index at(i) addresses by position for any rank"
  },
  {
   "property": "C06",
   "status": "proved",
   "theorems": [
    "Verif.Tensor.c06_reshape",
    "Verif.Tensor.c06_flatten",
    "Verif.Tensor.c06_total_size",
    "Verif.Tensor.c06_negative_dimensions",
    "Verif.Tensor.c06_fill"
   ],
   "note": "the size check does not reject negative dimensions for tensors without elements"
  },
  {
   "property": "C07",
   "status": "proved",
   "theorems": [
    "Verif.Indices.c07_range",
    "Verif.Indices.c07_zero_step"
   ],
   "note": "any positive step; a zero step divides by zero"
  },
  {
   "property": "C08",
   "status": "proved",
   "theorems": [
    "Verif.Indices.c08_concat",
    "Verif.Indices.c08_generator"
   ],
   "note": "all lists and chains"
  },
  {
   "property": "C09",
   "status": "proved",
   "theorems": [
    "Verif.Indices.c09_which",
    "Verif.Indices.c09_quantifiers",
    "Verif.Indices.c09_elementwise",
    "Verif.Indices.c09_de_morgan"
   ],
   "note": "all boolean vectors"
  },
  {
   "property": "C10",
   "status": "partial",
   "theorems": [
    "Verif.Indices.c10_container_first",
    "Verif.Indices.c10_number_first_partial",
    "Verif.Indices.c10_negation_number_first",
    "Verif.Indices.c10_all_equal"
   ],
   "note": "false of the code for a number on the left which equals an element; proved in all other cases (no NaN)"
  },
  {
   "property": "C100",
   "status": "partial",
   "theorems": [
    "Verif.ExtMem.c100_views_partial",
    "Verif.ExtMem.c100_write_reaches_array",
    "Verif.ExtMem.c100_poke_reaches_view",
    "Verif.ExtMem.c100_array_survives",
    "Verif.ExtMem.c100_negation_hidden_copy",
    "Verif.ExtMem.c100_negation_copy_not_independent",
    "Verif.ExtMem.c100_negation_dangling_copy",
    "Verif.ExtMem.c100_negation_assignment"
   ],
   "note": "Proved: all programs agree with the specification with views (c100_views_partial), a view without copies writes to the array (c100_write_reaches_array), all views show the array (c100_poke_reaches_view), the array is never released by the library (c100_array_survives). A view with copies does not write to the array and copies are not independent (negations)."
  },
  {
   "property": "C101",
   "status": "partial",
   "theorems": [
    "Verif.MapMem.c101_values",
    "Verif.MapMem.c101_maps",
    "Verif.MapMem.c101_released_partial",
    "Verif.MapMem.c101_negation_eigs",
    "Verif.MapMem.c101_negation_exception",
    "Verif.MapMem.c101_negation_copy"
   ],
   "note": "Proved: calls do not change values (c101_values), which map objects exist at every moment (c101_maps), and that all memory is released without eigs and exceptions (c101_released_partial). False for eigs with sparse matrices or functions, and with exceptions (negations)."
  },
  {
   "property": "C102",
   "status": "partial",
   "theorems": [
    "Verif.GemmFl.c102_fold_partial",
    "Verif.GemmFl.c102_foldc_partial",
    "Verif.GemmFl.c102_foldin_partial",
    "Verif.GemmFl.c102_mmult_partial",
    "Verif.GemmFl.c102_exists",
    "Verif.GemmFl.c102_negation_overflow"
   ],
   "note": "Proved for the sums which Model/GemmFloat.lean allows, with conditions against overflow; c102_exists says that there always is a result, c102_negation_overflow that the conditions are needed. Missing: libraries with fewer multiplications, infinities and NaN, tensors without elements in foldin (C21)."
  },
  {
   "property": "C103",
   "status": "partial",
   "theorems": [
    "Verif.AllocFail.c103_values_partial",
    "Verif.AllocFail.c103_no_failure",
    "Verif.AllocFail.c103_negation_resize",
    "Verif.AllocFail.c103_negation_resize_shared",
    "Verif.AllocFail.c103_negation_resize_lost",
    "Verif.AllocFail.c103_negation_lost"
   ],
   "note": "c103_values_partial for all histories without failing resize: no undefined behaviour, failed operations have no effect on values, and the lost blocks are counted. False for resize (c103_negation_resize, c103_negation_resize_shared, c103_negation_resize_lost); memory can be lost (c103_negation_lost). Tensors are C122."
  },
  {
   "property": "C104",
   "status": "partial",
   "theorems": [
    "Verif.Sparse.c104_order",
    "Verif.Sparse.c104_error_partial",
    "Verif.Sparse.c104_nan",
    "Verif.Sparse.c104_negation_full",
    "Verif.Sparse.c104_complex_partial"
   ],
   "note": "c104_order for all numbers without laws; c104_error_partial and c104_complex_partial bound the error if the sums are far from overflow; c104_nan. The product with full(S) may differ (c104_negation_full). Fused operations: C119. Sums near overflow are accurate if they are finite (C128); mmult(T, S) always stops (C39)."
  },
  {
   "property": "C105",
   "status": "partial",
   "theorems": [
    "Verif.SparseFl.c105_arithmetic",
    "Verif.SparseFl.c105_scale_partial",
    "Verif.SparseFl.c105_divide_partial",
    "Verif.SparseFl.c105_negate",
    "Verif.SparseFl.c105_round_trip",
    "Verif.SparseFl.c105_negation_scale",
    "Verif.SparseFl.c105_complex",
    "Verif.SparseFl.c105_complex_round_trip",
    "Verif.SparseFl.c105_complex_scale_partial",
    "Verif.SparseFl.c105_complex_divide_partial",
    "Verif.SparseFl.c105_negation_mixed",
    "Verif.SparseFl.c105_mixed_sums",
    "Verif.SparseFl.c105_mixed_products_partial",
    "Verif.SparseFl.c105_mixed_scale_partial",
    "Verif.SparseFl.c105_quotients_partial",
    "Verif.SparseFl.c105_negation_signs"
   ],
   "note": "c105_arithmetic, c105_complex, c105_negate, c105_round_trip and c105_complex_round_trip for all values; c105_scale_partial and c105_complex_scale_partial for finite numbers, c105_divide_partial and c105_complex_divide_partial for doubles other than zero and NaN, and no more can hold (c105_negation_scale). Products of a complex and a real matrix differ for infinities (c105_negation_mixed). Sums and differences of a complex and a real matrix for all values (c105_mixed_sums), up to signs of zeros of the parts, which do differ (c105_negation_signs); their products and products with numbers of the other type for finite ones. Quotients with a complex number for any division which takes zero to zero; how the library divides complex numbers is not modelled."
  },
  {
   "property": "C106",
   "status": "partial",
   "theorems": [
    "Verif.ViewMachine.c106_slice_partial",
    "Verif.ViewMachine.c106_assign_number_partial",
    "Verif.ViewMachine.c106_assign_partial",
    "Verif.ViewMachine.c106_assign_view_partial",
    "Verif.ViewMachine.c106_negation_step",
    "Verif.ViewMachine.c106_negation_endless",
    "Verif.ViewMachine.c106_negation_list",
    "Verif.ViewMachine.c106_negation_empty"
   ],
   "note": "c106_slice_partial, c106_assign_number_partial, c106_assign_partial and c106_assign_view_partial for tensors without empty dimensions, steps not larger than the dimension and (except for assigning a number) lists not longer than the dimension. Large steps, long lists and empty tensors overflow (c106_negation_step, c106_negation_endless, c106_negation_list, c106_negation_empty)."
  },
  {
   "property": "C107",
   "status": "partial",
   "theorems": [
    "Verif.MatSort.c107_sort_1d_partial",
    "Verif.MatSort.c107_sorted_partial",
    "Verif.MatSort.c107_negation_other",
    "Verif.MatSort.c107_negation_lengths",
    "Verif.MatSort.c107_shape",
    "Verif.MatSort.c107_negation_single",
    "Verif.MatSort.c107_negation_none",
    "Verif.MatSort.c107_sort_2d_partial",
    "Verif.MatSort.c107_negation_rows",
    "Verif.MatSort.c107_negation_one_y",
    "Verif.MatSort.c107_negation_one_x",
    "Verif.MatSort.c107_negation_gap"
   ],
   "note": "c107_sort_1d_partial and c107_sorted_partial for all records in which the last index of every field has the same number (at least two) of values; c107_sort_2d_partial for all grids with at least two values of x and y, the latter not too unevenly spaced, if the number of rows is given (exact arithmetic). False otherwise, see the negations."
  },
  {
   "property": "C108",
   "status": "partial",
   "theorems": [
    "Verif.Py.c108_sort",
    "Verif.Jobs.c108_dump_partial",
    "Verif.Jobs.c108_load_partial",
    "Verif.Jobs.c108_dataset_partial",
    "Verif.Jobs.c108_sorted_partial",
    "Verif.Jobs.c108_sorted_missing",
    "Verif.Jobs.c108_negation_same_name"
   ],
   "note": "c108_dump_partial, c108_load_partial, c108_dataset_partial and c108_sorted_partial for all declarations, jobs, and selections of files, if the variables have values and different names of at most 63 characters which do not begin with \"sdf\"; c108_sort (Verif.Py) is the same for any data set with a real field. False for variables with the same name, see the negation."
  },
  {
   "property": "C109",
   "status": "proved",
   "theorems": [
    "Verif.Rand.c109_tensor",
    "Verif.Rand.c109_complex",
    "Verif.Rand.c109_negation_complex",
    "Verif.Rand.c109_sparse",
    "Verif.Rand.c109_stored",
    "Verif.Rand.c109_density",
    "Verif.Rand.c109_zero",
    "Verif.Rand.c109_nan",
    "Verif.Rand.c109_none",
    "Verif.Rand.c109_negation_zero"
   ],
   "note": "c109_tensor and c109_complex for all states and dimensions; c109_sparse, c109_stored and c109_density for positive densities, c109_zero, c109_nan and c109_none for all others. Two further statements which one could expect are false, see the negations."
  },
  {
   "property": "C11",
   "status": "proved",
   "theorems": [
    "Verif.View.c11_slice",
    "Verif.View.c11_step_selection"
   ],
   "note": "every rank, shape without zero dimensions and mixture of in-bounds ranges"
  },
  {
   "property": "C110",
   "status": "proved",
   "theorems": [
    "Verif.Round.c110_elements",
    "Verif.Round.c110_integers",
    "Verif.Round.c110_idempotent",
    "Verif.Round.c110_odd",
    "Verif.Round.c110_monotone",
    "Verif.Round.c110_complex",
    "Verif.Round.c110_msvc_partial",
    "Verif.Round.c110_negation_msvc",
    "Verif.Round.c110_negation_msvc_integers"
   ],
   "note": "For all tensors with the function of the C library, which is modelled by its description. c110_msvc_partial and the negations concern the function for old compilers, which is wrong for negative numbers."
  },
  {
   "property": "C111",
   "status": "proved",
   "theorems": [
    "Verif.Closure.c111_apply",
    "Verif.Closure.c111_copy",
    "Verif.Closure.c111_map",
    "Verif.Closure.c111_solvers",
    "Verif.Closure.c111_dropped",
    "Verif.Closure.c111_negation_temporary",
    "Verif.Closure.c111_safe"
   ],
   "note": "For all programs. Maps work while the closure lives (c111_map) and not longer (c111_dropped, c111_negation_temporary); solvers with temporary closures are fine."
  },
  {
   "property": "C112",
   "status": "partial",
   "theorems": [
    "Verif.PermuteMachine.c112_permute_partial",
    "Verif.PermuteMachine.c112_transpose_partial",
    "Verif.PermuteMachine.c112_adjoint_partial",
    "Verif.PermuteMachine.c112_kron_partial",
    "Verif.PermuteMachine.c112_pointers",
    "Verif.PermuteMachine.c112_negation_transpose",
    "Verif.PermuteMachine.c112_negation_adjoint",
    "Verif.PermuteMachine.c112_negation_empty",
    "Verif.PermuteMachine.c112_negation_kron"
   ],
   "note": "Arithmetic: proved for permute of tensors without empty dimensions (c112_permute_partial; false otherwise, c112_negation_empty), for transpose and adjoint, and for kron if the rows and columns of the result are less than 2^63 (c112_negation_kron). Pointers: kron is proved, permute has undefined behaviour exactly in the cases of c112_pointers, transpose and adjoint for two or more columns (negations)."
  },
  {
   "property": "C113",
   "status": "partial",
   "theorems": [
    "Verif.LapackMachine.c113_svd_partial",
    "Verif.LapackMachine.c113_svd_refused",
    "Verif.LapackMachine.c113_negation_rows",
    "Verif.LapackMachine.c113_negation_shape",
    "Verif.LapackMachine.c113_negation_columns",
    "Verif.LapackMachine.c113_negation_workspace",
    "Verif.LapackMachine.c113_negation_full",
    "Verif.LapackMachine.c113_solve_partial",
    "Verif.LapackMachine.c113_negation_square",
    "Verif.LapackMachine.c113_negation_sides",
    "Verif.LapackMachine.c113_negation_equations",
    "Verif.LapackMachine.c113_eig_partial",
    "Verif.LapackMachine.c113_eig_sym_partial",
    "Verif.LapackMachine.c113_stops",
    "Verif.LapackMachine.c113_negation_workspace_eig"
   ],
   "note": "Proved if the sizes fit in the integers of LAPACK, the products in memory and the workspace in the type which the code converts it to; eig and eig_sym stop if the size does not fit. Without these conditions it is false for svd and solve (negations). That memory is exhausted is not modelled; the build for ACML, which has no workspace, neither."
  },
  {
   "property": "C114",
   "status": "partial",
   "theorems": [
    "Verif.Inplace.c114_programs_partial",
    "Verif.Inplace.c114_own_element",
    "Verif.Inplace.c114_own_element_at",
    "Verif.Inplace.c114_negation_own_element",
    "Verif.Inplace.c114_result_copy",
    "Verif.Inplace.c114_negation_result",
    "Verif.Inplace.c114_refused"
   ],
   "note": "Proved for all programs without an element of the tensor on the left as number and without a reference to the result of *= or /= with a number; for these the exact result is proved, and negations. Dimensions other than the number of elements, and mixed types, are not in the model."
  },
  {
   "property": "C115",
   "status": "partial",
   "theorems": [
    "Verif.Rand.c115_set_seed",
    "Verif.Rand.c115_urandom",
    "Verif.Rand.c115_time",
    "Verif.Rand.c115_history",
    "Verif.Rand.c115_start",
    "Verif.Rand.c115_text",
    "Verif.Rand.c115_randseed",
    "Verif.Rand.c115_thrown_away",
    "Verif.Rand.c115_negation_short",
    "Verif.Rand.c115_negation_text",
    "Verif.Rand.c115_negation_windows",
    "Verif.Rand.c115_negation_windows_seed"
   ],
   "note": "Proved for set_seed, RANDSEED with an int, /dev/urandom and the clock (up to 2^32 seconds), for the generator with 64 bits. False on Windows, if /dev/urandom gives no bytes, and for RANDSEED out of the range of int: negations."
  },
  {
   "property": "C116",
   "status": "partial",
   "theorems": [
    "Verif.ArpackMachine.c116_construct_partial",
    "Verif.ArpackMachine.c116_negation_overflow",
    "Verif.ArpackMachine.c116_room",
    "Verif.ArpackMachine.c116_eigs_partial",
    "Verif.ArpackMachine.c116_map_partial",
    "Verif.ArpackMachine.c116_memory",
    "Verif.ArpackMachine.c116_negation_map",
    "Verif.ArpackMachine.c116_negation_ldz",
    "Verif.ArpackMachine.c116_limit",
    "Verif.ArpackMachine.c116_small",
    "Verif.ArpackMachine.c116_negation_basis"
   ],
   "note": "Proved that eigs in machine words is eigs of C75 exactly if the sizes fit, which is up to 26754 elements for any number of eigenvalues, and up to 107374182 for ten or less; and that the objects that are made are always those the manual asks for. False of larger sizes: negations. The quotient in maxit is not rounded."
  },
  {
   "property": "C117",
   "status": "partial",
   "theorems": [
    "Verif.FftwMachine.c117_some_partial",
    "Verif.FftwMachine.c117_dim_partial",
    "Verif.FftwMachine.c117_all_partial",
    "Verif.FftwMachine.c117_memory",
    "Verif.FftwMachine.c117_negation_null",
    "Verif.FftwMachine.c117_negation_vector",
    "Verif.FftwMachine.c117_negation_rest",
    "Verif.FftwMachine.c117_negation_stride"
   ],
   "note": "Proved that the transforms in machine words are those of C66 if lengths and strides are of type int, which they are for all tensors with less than 2^31 elements. False of larger ones: negations."
  },
  {
   "property": "C118",
   "status": "partial",
   "theorems": [
    "Verif.SparseMachine.c118_kinds",
    "Verif.SparseMachine.c118_kron_partial",
    "Verif.SparseMachine.c118_negation_kron",
    "Verif.SparseMachine.c118_negation_columns",
    "Verif.SparseMachine.c118_negation_lost",
    "Verif.SparseMachine.c118_full_partial",
    "Verif.SparseMachine.c118_negation_full",
    "Verif.SparseMachine.c118_mmult_partial",
    "Verif.SparseMachine.c118_negation_mmult"
   ],
   "note": "Proved that kron, full and mmult (of tensors without empty dimensions) in machine words are those of C38, C35 and C39 if the sizes of the result are numbers of the machine and there is memory, and that the program stops if there is no memory. False if the sizes overflow: negations."
  },
  {
   "property": "C119",
   "status": "partial",
   "theorems": [
    "Verif.Fused.c119_scprod_partial",
    "Verif.Fused.c119_nan",
    "Verif.Fused.c119_square",
    "Verif.Fused.c119_norm2",
    "Verif.Fused.c119_norm2_error_partial",
    "Verif.Fused.c119_mmult_partial",
    "Verif.Fused.c119_plain",
    "Verif.Fused.c119_mmult_plain",
    "Verif.Fused.c119_refused",
    "Verif.Fused.c119_sum_right",
    "Verif.Fused.c119_sum_left",
    "Verif.Fused.c119_negation_same",
    "Verif.Fused.c119_complex_scprod_partial",
    "Verif.Fused.c119_complex_square",
    "Verif.Fused.c119_complex_norm2",
    "Verif.Fused.c119_complex_norm2_error_partial",
    "Verif.Fused.c119_complex_mmult_partial",
    "Verif.Fused.c119_complex_plain",
    "Verif.Fused.c119_real_partial",
    "Verif.Fused.c119_negation_real"
   ],
   "note": "Error bounds for real and complex scalar products, norms and products with sparse matrices, with any choice of fused operations; squares are not negative and norms not NaN. Sums near overflow: C128; norms of tiny tensors have an absolute bound, the relative one is false (C85). scprod(x,x) is real only without fused operations: c119_real_partial and c119_negation_real."
  },
  {
   "property": "C12",
   "status": "proved",
   "theorems": [
    "Verif.View.c12_assign_tensor",
    "Verif.View.c12_assign_number",
    "Verif.View.c12_assign_slice"
   ],
   "note": "right-hand sides: tensor, number, slice (also of the same tensor)"
  },
  {
   "property": "C120",
   "status": "partial",
   "theorems": [
    "Verif.SdfM.c120_record",
    "Verif.SdfM.c120_header",
    "Verif.SdfM.c120_round_trip_partial",
    "Verif.SdfM.c120_mismatch",
    "Verif.SdfM.c120_order",
    "Verif.SdfM.c120_negative_length",
    "Verif.SdfM.c120_linux",
    "Verif.SdfM.c120_negation_windows",
    "Verif.SdfM.c120_windows_32",
    "Verif.SdfM.c120_negation_half"
   ],
   "note": "Files are accepted exactly if the sizes of int and long and the order of bytes agree, and then read as written if size_t and long have the same size. Missing: machines where they differ; on 64-bit Windows loading is undefined (c120_negation_windows)."
  },
  {
   "property": "C121",
   "status": "partial",
   "theorems": [
    "Verif.Counter.c121_counters_partial",
    "Verif.Counter.c121_ref_count",
    "Verif.Counter.c121_negation_copies",
    "Verif.Counter.c121_short_partial"
   ],
   "note": "Proved for all histories in which there are never 2^31 vectors at the same time, in particular those with less than 2^31 operations; ref_count() is then the number of vectors which share the data. False for more: c121_negation_copies."
  },
  {
   "property": "C122",
   "status": "partial",
   "theorems": [
    "Verif.TensorFail.c122_values_partial",
    "Verif.TensorFail.c122_refused",
    "Verif.TensorFail.c122_no_failure",
    "Verif.TensorFail.c122_negation_lost",
    "Verif.TensorFail.c122_negation_negative"
   ],
   "note": "Proved for all programs and all failures: no undefined behaviour, operations with exceptions have no effect on any variable, tensors have as many elements as their dimensions say, and all memory belongs to a variable except for at most one block for each exception; operands which do not fit are refused (c122_refused). False: that no memory is lost (c122_negation_lost), and for Tensor(-1, -2) (c122_negation_negative)."
  },
  {
   "property": "C123",
   "status": "proved",
   "theorems": [
    "Verif.Tensor.c123_kron_associative",
    "Verif.Tensor.c123_kron_transpose",
    "Verif.Tensor.c123_kron_eye",
    "Verif.Tensor.c123_kron_add",
    "Verif.Tensor.c123_trace",
    "Verif.Tensor.c123_scale",
    "Verif.Tensor.c123_fold",
    "Verif.Tensor.c123_scprod",
    "Verif.Tensor.c123_norm2_real",
    "Verif.Tensor.c123_norm2_complex",
    "Verif.Tensor.c123_norminf"
   ],
   "note": "Equations between results of the models, both sides being defined, with exact arithmetic. Dimensions which are summed over, and numbers of columns for matrix_norminf, are not zero."
  },
  {
   "property": "C124",
   "status": "proved",
   "theorems": [
    "Verif.View.c124_same_selection",
    "Verif.View.c124_write_read",
    "Verif.View.c124_read_write",
    "Verif.View.c124_write_write",
    "Verif.View.c124_write_elsewhere",
    "Verif.View.c124_write_commute",
    "Verif.View.c124_number",
    "Verif.View.c124_view",
    "Verif.View.c124_unary",
    "Verif.View.c124_binary",
    "Verif.View.c124_slice_slice",
    "Verif.View.c124_all",
    "Verif.View.c124_permute",
    "Verif.View.c124_product",
    "Verif.View.c124_transpose"
   ],
   "note": "Slices of tensors with elements, ranges within the dimensions; assignments without repeated positions (as in C12), of another tensor (C16 has the tensor itself)."
  },
  {
   "property": "C125",
   "status": "proved",
   "theorems": [
    "Verif.Sparse.c125_add",
    "Verif.Sparse.c125_zero",
    "Verif.Sparse.c125_adjoint_add",
    "Verif.Sparse.c125_mmult_add",
    "Verif.Sparse.c125_mmult_scale",
    "Verif.Sparse.c125_mmult_kron",
    "Verif.Sparse.c125_scprod",
    "Verif.Sparse.c125_expressions",
    "Verif.Sparse.c125_kron"
   ],
   "note": "Equations between results of the models with exact arithmetic, for every result which std::sort permits. For products of Kronecker products the numbers of columns are not zero (C22)."
  },
  {
   "property": "C126",
   "status": "proved",
   "theorems": [
    "Verif.Ops.c126_binary",
    "Verif.Ops.c126_sizes",
    "Verif.Ops.c126_mixed_dimensions",
    "Verif.Ops.c126_declared",
    "Verif.Ops.c126_assign",
    "Verif.Ops.c126_assign_sizes",
    "Verif.Ops.c126_minus",
    "Verif.Ops.c126_functions",
    "Verif.Ops.c126_sparse_declared",
    "Verif.Ops.c126_sparse",
    "Verif.Ops.c126_sparse_minus",
    "Verif.Ops.c126_sparse_sizes"
   ],
   "note": "Exact arithmetic; the functions of <cmath> and <complex> are the mathematical functions (principal branches). Which overload C++ selects is read off the declarations (DESIGN.md section 4)."
  },
  {
   "property": "C127",
   "status": "proved",
   "theorems": [
    "Verif.Fftw.c127_conj",
    "Verif.Fftw.c127_opposite",
    "Verif.Fftw.c127_real",
    "Verif.Fftw.c127_twice",
    "Verif.Fftw.c127_convolution",
    "Verif.Fftw.c127_shift"
   ],
   "note": "Exact arithmetic; FFTW is a contract from its manual, as for C66, and so is the domain: tensors with indices, transforms along indices of dimensions other than zero."
  },
  {
   "property": "C128",
   "status": "proved",
   "theorems": [
    "Verif.FiniteResults.c128_sum",
    "Verif.FiniteResults.c128_mean",
    "Verif.FiniteResults.c128_complex_sum",
    "Verif.FiniteResults.c128_complex_mean",
    "Verif.FiniteResults.c128_scprod",
    "Verif.FiniteResults.c128_norm2",
    "Verif.FiniteResults.c128_sparse",
    "Verif.FiniteResults.c128_fold",
    "Verif.FiniteResults.c128_foldin",
    "Verif.FiniteResults.c128_mmult",
    "Verif.FiniteResults.c128_complex_scprod",
    "Verif.FiniteResults.c128_complex_norm2",
    "Verif.FiniteResults.c128_complex_sparse",
    "Verif.FiniteResults.c128_negation_overflow",
    "Verif.FiniteResults.c128_negation_operands"
   ],
   "note": "Rounding to nearest of IEEE 754; gemm may compute the sums in any order, with or without fused operations and products with zero, but not by algorithms like that of Strassen."
  },
  {
   "property": "C129",
   "status": "partial",
   "theorems": [
    "Verif.SumFl.c129_trace_matrix",
    "Verif.SumFl.c129_trace",
    "Verif.SumFl.c129_mean_partial",
    "Verif.SumFl.c129_mean_vector",
    "Verif.SumFl.c129_complex_trace_matrix",
    "Verif.SumFl.c129_complex_trace",
    "Verif.SumFl.c129_norminf",
    "Verif.SumFl.c129_negation_norminf"
   ],
   "note": "Means along an index which is not the last one (C30); fewer than 2^53 elements for means; norminf of matrices of finite elements."
  },
  {
   "property": "C13",
   "status": "partial",
   "theorems": [
    "Verif.View.c13_bounds_partial",
    "Verif.View.c13_negation_list_reads_past_end",
    "Verif.View.c13_negation_list_reads_wrong_column",
    "Verif.View.c13_negation_negative_single"
   ],
   "note": "false of the code for negative indices and for listed indices equal to the length; proved for the rest"
  },
  {
   "property": "C130",
   "status": "partial",
   "theorems": [
    "Verif.IndexTensor.c130_values",
    "Verif.IndexTensor.c130_order",
    "Verif.IndexTensor.c130_injective_partial",
    "Verif.IndexTensor.c130_negation_injective"
   ],
   "note": "Different lists give different tensors only for indices up to 2^53."
  },
  {
   "property": "C131",
   "status": "proved",
   "theorems": [
    "Verif.MtEngine.c131_unique",
    "Verif.MtEngine.c131_set_seed",
    "Verif.MtEngine.c131_engine32",
    "Verif.MtEngine.c131_default64",
    "Verif.MtEngine.c131_default32"
   ],
   "note": "The program starts with a seed of rand_reseed (C115); init_by_array is that of C55."
  },
  {
   "property": "C132",
   "status": "partial",
   "theorems": [
    "Verif.PowerFl.c132_ends",
    "Verif.PowerFl.c132_unit_partial",
    "Verif.PowerFl.c132_residual",
    "Verif.PowerFl.c132_eigenvalue_partial",
    "Verif.PowerFl.c132_negation_tiny",
    "Verif.PowerFl.c132_negation_swap"
   ],
   "note": "Real numbers only; the norm is one for maps whose results have squares in the range of doubles, and the distance from an eigenvalue is proved if the first test ends the loop."
  },
  {
   "property": "C133",
   "status": "partial",
   "theorems": [
    "Verif.CgsFl.c133_ends",
    "Verif.CgsFl.c133_residual_partial",
    "Verif.CgsFl.c133_negation_start",
    "Verif.CgsFl.c133_two_steps"
   ],
   "note": "Real numbers only; the bound has the largest elements of the vectors of the run, and there is none in terms of the matrix only. c133_ends and c133_residual_partial hold for any length of the steps and any directions; only c133_two_steps depends on these, for one matrix."
  },
  {
   "property": "C134",
   "status": "proved",
   "theorems": [
    "Verif.Tensor.c134_permute_arguments",
    "Verif.Tensor.c134_permute_disjoint",
    "Verif.Tensor.c134_permute_braid",
    "Verif.Tensor.c134_permute_perm",
    "Verif.Tensor.c134_trace_symmetric",
    "Verif.Tensor.c134_trace_permute",
    "Verif.Tensor.c134_trace_commute",
    "Verif.Tensor.c134_fold_trace",
    "Verif.Tensor.c134_trace_first",
    "Verif.Tensor.c134_trace_second",
    "Verif.Tensor.c134_negation_fold_trace",
    "Verif.Tensor.c134_permute_sum",
    "Verif.Tensor.c134_scale_commute",
    "Verif.Tensor.c134_scale_ones",
    "Verif.Tensor.c134_scale_permute",
    "Verif.Tensor.c134_trace_linear",
    "Verif.Tensor.c134_fold_linear",
    "Verif.Tensor.c134_fold_linear_first"
   ],
   "note": ""
  },
  {
   "property": "C135",
   "status": "partial",
   "theorems": [
    "Verif.Gen.c135_exact",
    "Verif.Gen.c135_compiles",
    "Verif.Gen.c135_truncates",
    "Verif.Gen.c135_negation_range",
    "Verif.Gen.c135_rounds",
    "Verif.Gen.c135_wraps",
    "Verif.Gen.c135_bool",
    "Verif.Gen.c135_negation_xgen",
    "Verif.Gen.c135_equal"
   ],
   "note": "Numbers which the type of the elements has not are rounded or truncated (c135_rounds, c135_truncates), and the program has no meaning for doubles which are no integers of the type at all (c135_negation_range)."
  },
  {
   "property": "C136",
   "status": "proved",
   "theorems": [
    "Verif.Exact.c136_fold",
    "Verif.Exact.c136_foldin",
    "Verif.Exact.c136_mmult",
    "Verif.Exact.c136_assoc",
    "Verif.Exact.c136_scprod",
    "Verif.Exact.c136_arith",
    "Verif.Exact.c136_sum",
    "Verif.Exact.c136_trace",
    "Verif.Exact.c136_sparse",
    "Verif.Exact.c136_complex_fold",
    "Verif.Exact.c136_complex_foldc",
    "Verif.Exact.c136_complex_foldin",
    "Verif.Exact.c136_complex_mmult",
    "Verif.Exact.c136_complex_scprod",
    "Verif.Exact.c136_complex_sum",
    "Verif.Exact.c136_complex_trace",
    "Verif.Exact.c136_negation_bound"
   ],
   "note": "For sums below 2^53; false above."
  },
  {
   "property": "C137",
   "status": "partial",
   "theorems": [
    "Verif.ExpmFl.c137_scale_partial",
    "Verif.ExpmFl.c137_pade_partial",
    "Verif.ExpmFl.c137_error_partial",
    "Verif.ExpmFl.c137_squares_partial",
    "Verif.ExpmFl.c137_undefined",
    "Verif.ExpmFl.c137_negation_huge",
    "Verif.ExpmFl.c137_negation_witness",
    "Verif.ExpmFl.c137_negation_half",
    "Verif.ExpmFl.c137_negation_order"
   ],
   "note": "The scaling is proved for all matrices of finite numbers with norm between the smallest double and 2^1022; that the result is defined and approximates the exponential is false for the matrices of c137_undefined and c137_negation_huge; c137_pade_partial bounds the errors of the numerator and of the denominator for all other norms up to 2^1022 (orders up to 2^26, n q up to 2^40), c137_error_partial the error of the result when the norm is less than 1/2, so that nothing is squared, and c137_squares_partial the error for norms up to 693, both given the residual of solve. Missing: norms between 693 and 2^1022, and the residual of LAPACK."
  },
  {
   "property": "C138",
   "status": "proved",
   "theorems": [
    "Verif.FlLaws.c138_comm",
    "Verif.FlLaws.c138_sign",
    "Verif.FlLaws.c138_neg_mul",
    "Verif.FlLaws.c138_neutral",
    "Verif.FlLaws.c138_double",
    "Verif.FlLaws.c138_self",
    "Verif.FlLaws.c138_pow2",
    "Verif.FlLaws.c138_symmetric",
    "Verif.FlLaws.c138_sum_mono",
    "Verif.FlLaws.c138_sum_bound",
    "Verif.FlLaws.c138_scprod",
    "Verif.FlLaws.c138_norm2_mono",
    "Verif.FlLaws.c138_complex_add",
    "Verif.FlLaws.c138_complex_mul",
    "Verif.FlLaws.plain_comm",
    "Verif.FlLaws.iso_comm",
    "Verif.FlLaws.c138_complex_norm2",
    "Verif.FlLaws.c138_negation_assoc",
    "Verif.FlLaws.c138_negation_sum_transpose",
    "Verif.FlLaws.c138_negation_mean",
    "Verif.FlLaws.c138_negation_half",
    "Verif.FlLaws.c138_negation_self"
   ],
   "note": "All laws of the statement, and counterexamples to those which do not hold."
  },
  {
   "property": "C139",
   "status": "proved",
   "theorems": [
    "Verif.Convert.c139_fold",
    "Verif.Convert.c139_mmult",
    "Verif.Convert.c139_trace2",
    "Verif.Convert.c139_permute",
    "Verif.Convert.c139_transpose",
    "Verif.Convert.c139_sum",
    "Verif.Convert.c139_scprod",
    "Verif.Convert.c139_operators",
    "Verif.Convert.c139_double_scprod",
    "Verif.Convert.c139_negation_double_scprod",
    "Verif.Convert.c139_double_sum",
    "Verif.Convert.c139_double_parts",
    "Verif.Convert.c139_double_add",
    "Verif.Convert.c139_double_mul",
    "Verif.Convert.c139_negation_double_mul",
    "Verif.Convert.c139_foldin",
    "Verif.Convert.c139_kron",
    "Verif.Convert.c139_scale"
   ],
   "note": "Exact arithmetic; scprod, sum, + and * also in doubles."
  },
  {
   "property": "C14",
   "status": "partial",
   "theorems": [
    "Verif.View.c14_negation_negative_end",
    "Verif.View.c14_positive_limits_partial"
   ],
   "note": "false of the code: negative limits do not count from the end"
  },
  {
   "property": "C15",
   "status": "partial",
   "theorems": [
    "Verif.View.c15_terminates_partial",
    "Verif.View.c15_full_ranges",
    "Verif.View.c15_negation_endless",
    "Verif.View.c15_negation_division_by_zero",
    "Verif.View.c15_negation_division_list"
   ],
   "note": "false of the code for zero dimensions; proved for non-zero dimensions, and for complete ranges of any dimensions"
  },
  {
   "property": "C16",
   "status": "partial",
   "theorems": [
    "Verif.View.c16_negation_self_assignment",
    "Verif.View.c16_copy_is_different",
    "Verif.View.c16_identity_partial"
   ],
   "note": "false of the code: the tensor is overwritten while it is read"
  },
  {
   "property": "C17",
   "status": "proved",
   "theorems": [
    "Verif.Tensor.c17_permute",
    "Verif.Tensor.c17_involution"
   ],
   "note": ""
  },
  {
   "property": "C18",
   "status": "proved",
   "theorems": [
    "Verif.Tensor.c18_transpose",
    "Verif.Tensor.c18_adjoint",
    "Verif.Tensor.c18_transpose_involution",
    "Verif.Tensor.c18_adjoint_involution",
    "Verif.Tensor.c18_transpose_product",
    "Verif.Tensor.c18_adjoint_product"
   ],
   "note": ""
  },
  {
   "property": "C19",
   "status": "proved",
   "theorems": [
    "Verif.Tensor.c19_fold",
    "Verif.Tensor.c19_fold_positions",
    "Verif.Tensor.c19_fold_covers"
   ],
   "note": "BLAS gemm is represented by its specification; elements of a commutative semiring"
  },
  {
   "property": "C20",
   "status": "proved",
   "theorems": [
    "Verif.Tensor.c20_foldc",
    "Verif.Tensor.c20_foldc_real",
    "Verif.Tensor.c20_foldc_real_complex",
    "Verif.Tensor.c20_foldc_complex_real"
   ],
   "note": ""
  },
  {
   "property": "C21",
   "status": "partial",
   "theorems": [
    "Verif.Tensor.c21_foldin_partial",
    "Verif.Tensor.c21_negation_vectors"
   ],
   "note": "false of the code for two vectors (out of bounds write); proved for all other ranks"
  },
  {
   "property": "C22",
   "status": "proved",
   "theorems": [
    "Verif.Tensor.c22_product",
    "Verif.Tensor.c22_associative",
    "Verif.Tensor.c22_identity",
    "Verif.Tensor.c22_distributive"
   ],
   "note": ""
  },
  {
   "property": "C23",
   "status": "partial",
   "theorems": [
    "Verif.Tensor.c23_into_partial",
    "Verif.Tensor.c23_negation_alias",
    "Verif.Tensor.c23_negation_witness"
   ],
   "note": "false of the code when the output is one of the arguments"
  },
  {
   "property": "C24",
   "status": "proved",
   "theorems": [
    "Verif.Tensor.c24_scale",
    "Verif.Tensor.c24_scale_position",
    "Verif.Tensor.c24_scale_inplace",
    "Verif.Tensor.c24_scale_inplace_self",
    "Verif.Tensor.c24_scale_scale"
   ],
   "note": ""
  },
  {
   "property": "C25",
   "status": "proved",
   "theorems": [
    "Verif.Tensor.c25_trace",
    "Verif.Tensor.c25_trace_covers",
    "Verif.Tensor.c25_trace_positions",
    "Verif.Tensor.c25_trace_minus_rank",
    "Verif.Tensor.c25_trace_matrix",
    "Verif.Tensor.c25_trace_rank",
    "Verif.Tensor.c25_trace_cyclic"
   ],
   "note": "trace(A,-rank,..) stops the program although -rank is a valid position elsewhere"
  },
  {
   "property": "C26",
   "status": "partial",
   "theorems": [
    "Verif.Tensor.c26_take_diag_partial",
    "Verif.Tensor.c26_take_diag_exchanged_partial",
    "Verif.Tensor.c26_take_diag_range",
    "Verif.Tensor.c26_take_diag_positions",
    "Verif.Tensor.c26_take_diag_wrong",
    "Verif.Tensor.c26_take_diag_out_of_bounds",
    "Verif.Tensor.c26_take_diag_same_position"
   ],
   "note": "false of the code in general: a wrong stride is passed when there are dimensions after the second position (wrong elements or reads out of bounds), and equal positions are not detected; proved in the cases in which the strides coincide"
  },
  {
   "property": "C27",
   "status": "partial",
   "theorems": [
    "Verif.Tensor.c27_diag",
    "Verif.Tensor.c27_diag_length",
    "Verif.Tensor.c27_round_trip_partial",
    "Verif.Tensor.c27_empty"
   ],
   "note": "diag proved; the round trip is false of the code for empty vectors"
  },
  {
   "property": "C28",
   "status": "partial",
   "theorems": [
    "Verif.Tensor.c28_kron",
    "Verif.Tensor.c28_covers",
    "Verif.Tensor.c28_kron_vectors",
    "Verif.Tensor.c28_kron_rank",
    "Verif.Tensor.c28_kron2",
    "Verif.Tensor.c28_mixed_product",
    "Verif.Tensor.c28_kron2_sum_partial",
    "Verif.Tensor.c28_kron2_sum_exchanged_partial",
    "Verif.Tensor.c28_kron2_sum_wrong",
    "Verif.Tensor.c28_kron2_sum_vectors_partial"
   ],
   "note": "kron and kron2 proved; false of the code for kron2_sum, whose arguments are exchanged"
  },
  {
   "property": "C29",
   "status": "proved",
   "theorems": [
    "Verif.Tensor.c29_change_dimension",
    "Verif.Tensor.c29_same",
    "Verif.Tensor.c29_position",
    "Verif.Tensor.c29_round_trip"
   ],
   "note": ""
  },
  {
   "property": "C30",
   "status": "partial",
   "theorems": [
    "Verif.Tensor.c30_mean_partial",
    "Verif.Tensor.c30_mean_vector_partial",
    "Verif.Tensor.c30_mean_last",
    "Verif.Tensor.c30_position"
   ],
   "note": "false of the code for the last index of a tensor with two or more (writes out of bounds); proved for the others and for vectors"
  },
  {
   "property": "C31",
   "status": "partial",
   "theorems": [
    "Verif.Tensor.c31_squeeze_partial",
    "Verif.Tensor.c31_elements",
    "Verif.Tensor.c31_ones",
    "Verif.Tensor.c31_zero"
   ],
   "note": "false of the code when all dimensions are 1 (program stops) or some is 0 (uninitialised dimensions); proved otherwise"
  },
  {
   "property": "C32",
   "status": "partial",
   "theorems": [
    "Verif.Tensor.c32_tensor_tensor",
    "Verif.Tensor.c32_mixed_dimensions",
    "Verif.Tensor.c32_tensor_number",
    "Verif.Tensor.c32_unary",
    "Verif.Tensor.c32_inplace",
    "Verif.Tensor.c32_inplace_number_partial",
    "Verif.Tensor.c32_negation_own_element"
   ],
   "note": "false of the code for an in-place operation with an own element as number; proved otherwise"
  },
  {
   "property": "C33",
   "status": "proved",
   "theorems": [
    "Verif.Tensor.c33_sum",
    "Verif.Tensor.c33_sum_matrix",
    "Verif.Tensor.c33_max",
    "Verif.Tensor.c33_min",
    "Verif.Tensor.c33_norm0",
    "Verif.Tensor.c33_scprod",
    "Verif.Tensor.c33_scprod_out_of_bounds",
    "Verif.Tensor.c33_sesquilinear",
    "Verif.Tensor.c33_norm2_real",
    "Verif.Tensor.c33_norm2_complex"
   ],
   "note": "Equal sizes are a hypothesis of scprod, which does not compare them (c33_scprod_out_of_bounds)."
  },
  {
   "property": "C34",
   "status": "partial",
   "theorems": [
    "Verif.Tensor.c34_sort",
    "Verif.Tensor.c34_sort_defined",
    "Verif.Tensor.c34_sort_integers_partial",
    "Verif.Tensor.c34_sort_integers_defined",
    "Verif.Tensor.c34_sort_large",
    "Verif.Tensor.c34_sort_indices"
   ],
   "note": "False for sort(Indices) with elements beyond 2^53, which are compared as double (c34_sort_large); proved otherwise. std::sort is represented by its specification."
  },
  {
   "property": "C35",
   "status": "proved",
   "theorems": [
    "Verif.Sparse.c35_full",
    "Verif.Sparse.c35_get",
    "Verif.Sparse.c35_sparse",
    "Verif.Sparse.c35_round_trip",
    "Verif.Sparse.c35_full_sparse",
    "Verif.Sparse.c35_vector"
   ],
   "note": "all matrices, also without rows or columns; a vector is outside of the property and makes the constructor read out of bounds"
  },
  {
   "property": "C36",
   "status": "proved",
   "theorems": [
    "Verif.Sparse.c36_eye",
    "Verif.Sparse.c36_expressions",
    "Verif.Sparse.c36_invariant",
    "Verif.Sparse.c36_preallocated",
    "Verif.Sparse.c36_preallocated_transpose"
   ],
   "note": "all expressions of conversions, eye, zeros, elementwise operations, functions, kron, kron2, transposes and adjoints"
  },
  {
   "property": "C37",
   "status": "proved",
   "theorems": [
    "Verif.Sparse.c37_binop",
    "Verif.Sparse.c37_mismatch",
    "Verif.Sparse.c37_map",
    "Verif.Sparse.c37_full_binop",
    "Verif.Sparse.c37_full_map"
   ],
   "note": "every operation with 0 op 0 = 0; numbers are elements of any type with zero"
  },
  {
   "property": "C38",
   "status": "partial",
   "theorems": [
    "Verif.Sparse.c38_kron",
    "Verif.Sparse.c38_full_kron",
    "Verif.Sparse.c38_full_kron2",
    "Verif.Sparse.c38_kron2_sum_partial",
    "Verif.Sparse.c38_kron2_sum_wrong"
   ],
   "note": "proved for kron and kron2; false of the code for kron2_sum, which uses the number of stored elements instead of the number of rows"
  },
  {
   "property": "C39",
   "status": "partial",
   "theorems": [
    "Verif.Sparse.c39_sparse_tensor",
    "Verif.Sparse.c39_dense",
    "Verif.Sparse.c39_tensor_sparse_aborts",
    "Verif.Sparse.c39_tensor_sparse_raw_partial"
   ],
   "note": "mmult(S,T) proved for any rank; mmult(T,S) always stops the program, the routine behind it is proved correct; elements of a commutative semiring"
  },
  {
   "property": "C40",
   "status": "proved",
   "theorems": [
    "Verif.Sparse.c40_adjoint",
    "Verif.Sparse.c40_full_transpose",
    "Verif.Sparse.c40_full_adjoint",
    "Verif.Sparse.c40_involution"
   ],
   "note": "every result permitted by std::sort"
  },
  {
   "property": "C41",
   "status": "partial",
   "theorems": [
    "Verif.Sparse.c41_coordinates_partial",
    "Verif.Sparse.c41_no_sizes",
    "Verif.Sparse.c41_duplicate",
    "Verif.Sparse.c41_duplicate_first"
   ],
   "note": "false of the code without sizes and for repeated coordinates; proved for different coordinates within given sizes"
  },
  {
   "property": "C42",
   "status": "partial",
   "theorems": [
    "Verif.Sdf.c42_record",
    "Verif.Sdf.c42_round_trip_partial",
    "Verif.Sdf.c42_mismatch_partial",
    "Verif.Sdf.c42_tensor_as_number",
    "Verif.Sdf.c42_empty_as_number",
    "Verif.Sdf.c42_long_name"
   ],
   "note": "round trip for names up to 63 characters without null characters and size_t up to 2^53 (see C46); wrong names and tags stop the program; not proved because false: an empty tensor loaded as a number is undefined behaviour; long names cannot be loaded"
  },
  {
   "property": "C43",
   "status": "proved",
   "theorems": [
    "Verif.Sdf.c43_shared",
    "Verif.Sdf.c43_overwrite",
    "Verif.Sdf.c43_sessions",
    "Verif.Sdf.c43_contents",
    "Verif.Sdf.c43_read_back",
    "Verif.Sdf.c43_empty_file",
    "Verif.Sdf.c43_lock_name"
   ],
   "note": "single process, permissions granted"
  },
  {
   "property": "C44",
   "status": "partial",
   "theorems": [
    "Verif.Sdf.c44_finished",
    "Verif.Sdf.c44_crash_partial",
    "Verif.Sdf.c44_lost",
    "Verif.Sdf.c44_before_close",
    "Verif.Sdf.c44_tmp_name"
   ],
   "note": "negation for the window between deleting the destination and renaming; every other stopping point has the old or new contents"
  },
  {
   "property": "C45",
   "status": "partial",
   "theorems": [
    "Verif.Lock.c45_two_holders",
    "Verif.Lock.c45_two_processes",
    "Verif.Lock.c45_same_file_partial",
    "Verif.Lock.c45_exclusive_partial",
    "Verif.Lock.c45_available"
   ],
   "note": "negation with two and three processes; exclusive access when no deletion falls between open and flock of another process; always exclusive per file; no stale locks"
  },
  {
   "property": "C46",
   "status": "partial",
   "theorems": [
    "Verif.Sdf.c46_int",
    "Verif.Sdf.c46_size",
    "Verif.Sdf.c46_size_partial",
    "Verif.Sdf.c46_not_exact",
    "Verif.Sdf.c46_undefined"
   ],
   "note": "int exact for all values; size_t recovered as the nearest double, exact up to 2^53; negation for larger values"
  },
  {
   "property": "C47",
   "status": "partial",
   "theorems": [
    "Verif.Sdf.c47_made_up",
    "Verif.Sdf.c47_made_up_complex",
    "Verif.Sdf.c47_end_of_file",
    "Verif.Sdf.c47_after_short_read",
    "Verif.Sdf.c47_no_file",
    "Verif.Sdf.c47_head_partial",
    "Verif.Sdf.c47_number_partial",
    "Verif.Sdf.c47_complete_partial"
   ],
   "note": "negation; what holds: complete variables are read, numbers are never made up, tensors are not returned when the file ends before the elements"
  },
  {
   "property": "C48",
   "status": "partial",
   "theorems": [
    "Verif.Jobs.c48_declaration",
    "Verif.Jobs.c48_jobs_partial",
    "Verif.Jobs.c48_once",
    "Verif.Jobs.c48_zero_steps"
   ],
   "note": "Proved for variables with at least one value. A variable with 0 steps makes the constructor divide by zero (c48_zero_steps). atof and atoi are parameters; index is unbounded."
  },
  {
   "property": "C49",
   "status": "partial",
   "theorems": [
    "Verif.Jobs.c49_blocks_partial",
    "Verif.Jobs.c49_wrong_numbers"
   ],
   "note": "Proved for variables with at least one value, all numbers of blocks and both orders of the options."
  },
  {
   "property": "C50",
   "status": "partial",
   "theorems": [
    "Verif.Jobs.c50_negation_blocks",
    "Verif.Jobs.c50_negation_first",
    "Verif.Jobs.c50_first_out",
    "Verif.Jobs.c50_interval_partial",
    "Verif.Jobs.c50_this_partial",
    "Verif.Jobs.c50_order",
    "Verif.Jobs.c50_blocks_and_first"
   ],
   "note": "False: --job-blocks without --this-job and --first-job without --last-job read numbers without a value. Proved: what --this-job, --first-job with --last-job, and --job-blocks with --this-job (C49) do."
  },
  {
   "property": "C51",
   "status": "partial",
   "theorems": [
    "Verif.Jobs.c51_negation_ignored",
    "Verif.Jobs.c51_negation_no_variables"
   ],
   "note": "False: the file is never read; proved that --job is ignored. The lines it should read are understood by --variable (c48_declaration)."
  },
  {
   "property": "C52",
   "status": "proved",
   "theorems": [
    "Verif.Jobs.c52_separators",
    "Verif.Jobs.c52_join",
    "Verif.Jobs.c52_decomposition",
    "Verif.Jobs.c52_pieces"
   ],
   "note": "Every text is a decomposition in pieces, and its pieces are returned."
  },
  {
   "property": "C53",
   "status": "proved",
   "theorems": [
    "Verif.Shift.c53_shift",
    "Verif.Shift.c53_position",
    "Verif.Shift.c53_several",
    "Verif.Shift.c53_all",
    "Verif.Shift.c53_flags",
    "Verif.Shift.c53_inverse",
    "Verif.Shift.c53_inverse_one"
   ],
   "note": "All tensors (including those without elements), all positions and flags, even and odd lengths, and the errors of positions and flags."
  },
  {
   "property": "C54",
   "status": "partial",
   "theorems": [
    "Verif.Rand.c54_double",
    "Verif.Rand.c54_double32",
    "Verif.Rand.c54_uint",
    "Verif.Rand.c54_uint_in",
    "Verif.Rand.c54_ulong",
    "Verif.Rand.c54_ulong_in",
    "Verif.Rand.c54_int",
    "Verif.Rand.c54_int_in_partial",
    "Verif.Rand.c54_int_overflow",
    "Verif.Rand.c54_long_partial",
    "Verif.Rand.c54_long_negative",
    "Verif.Rand.c54_float_one",
    "Verif.Rand.c54_double_to_partial",
    "Verif.Rand.c54_double_in_partial",
    "Verif.Rand.c54_negation_double_to",
    "Verif.Rand.c54_negation_double_in",
    "Verif.Rand.c54_negation_double_overflow"
   ],
   "note": "unsigned, unsigned long, int (if the difference of the limits is an int) and double hold, double between limits up to the upper limit itself and without overflow (c54_double_to_partial, c54_double_in_partial and their negations); long and float do not (c54_long_negative, c54_float_one), int overflows for distant limits (c54_int_overflow)."
  },
  {
   "property": "C55",
   "status": "proved",
   "theorems": [
    "Verif.Rand.c55_unique",
    "Verif.Rand.c55_sequence",
    "Verif.Rand.c55_reproducible",
    "Verif.Rand.c55_default",
    "Verif.Rand.c55_temper64",
    "Verif.Rand.c55_temper32",
    "Verif.Rand.c55_array",
    "Verif.Rand.c55_array_empty",
    "Verif.Rand.c55_alive",
    "Verif.Rand.c55_array_alive"
   ],
   "note": "Both generators, all seeds and all numbers of draws; init_by_array needs at least one word. Not modelled: where rand_reseed takes its seed from."
  },
  {
   "property": "C56",
   "status": "partial",
   "theorems": [
    "Verif.Blocks.c56_unique",
    "Verif.Blocks.c56_blocks",
    "Verif.Blocks.c56_tall",
    "Verif.Blocks.c56_blocks_zero",
    "Verif.Blocks.c56_single",
    "Verif.Blocks.c56_tall_tolerance"
   ],
   "note": "Proved for all matrices without a tolerance, and for any tolerance if there are no more rows than columns. False otherwise (c56_tall_tolerance): the tolerance is lost when the matrix is transposed, c56_tall says what is computed instead."
  },
  {
   "property": "C57",
   "status": "partial",
   "theorems": [
    "Verif.Cgs.c57_residual",
    "Verif.Cgs.c57_converges_within",
    "Verif.Cgs.c57_converges",
    "Verif.Cgs.c57_matrix",
    "Verif.Cgs.c57_matrix_converges",
    "Verif.Cgs.c57_more_iterations",
    "Verif.Cgs.c57_indefinite"
   ],
   "note": "Residual and convergence proved for all linear maps and all Hermitian positive ones, respectively. The limit of iterations is exceeded by one (c57_more_iterations), c57_residual has the actual bound. Rounding is not modelled."
  },
  {
   "property": "C58",
   "status": "partial",
   "theorems": [
    "Verif.Expm.c58_pade_unique",
    "Verif.Expm.c58_expm_partial",
    "Verif.Expm.c58_error_partial",
    "Verif.Expm.c58_converges_partial",
    "Verif.Expm.c58_zero",
    "Verif.Expm.c58_refused",
    "Verif.Expm.c58_order_zero",
    "Verif.Expm.c58_order_zero_wrong"
   ],
   "note": "Exact arithmetic over the real or complex numbers; LAPACK is assumed to solve the equations. False for zero matrices and for the order 0."
  },
  {
   "property": "C59",
   "status": "proved",
   "theorems": [
    "Verif.Flags.c59_history",
    "Verif.Flags.c59_invalid"
   ],
   "note": "All histories of keys created, set and read; reading a key which was never created is undefined behaviour."
  },
  {
   "property": "C60",
   "status": "partial",
   "theorems": [
    "Verif.Linspace.c60_linspace_partial",
    "Verif.Linspace.c60_numbers_partial",
    "Verif.Linspace.c60_few_columns",
    "Verif.Linspace.c60_no_indices",
    "Verif.Linspace.c60_mismatch"
   ],
   "note": "Proved over any field of characteristic zero, for all ends which have an index (with none, the program stops: c60_no_indices). Rounding is the subject of C86."
  },
  {
   "property": "C61",
   "status": "partial",
   "theorems": [
    "Verif.Tensor.c61_norminf_partial",
    "Verif.Tensor.c61_norminf_no_columns"
   ],
   "note": "False for matrices with rows and without columns (c61_norminf_no_columns); proved for all others."
  },
  {
   "property": "C62",
   "status": "partial",
   "theorems": [
    "Verif.Sparse.c62_sound",
    "Verif.Sparse.c62_entries_partial",
    "Verif.Sparse.c62_stored_zero"
   ],
   "note": "false of the code if zeros are stored; proved otherwise"
  },
  {
   "property": "C63",
   "status": "partial",
   "theorems": [
    "Verif.Sdf.c63_shared",
    "Verif.Sdf.c63_shared_partial",
    "Verif.Sdf.c63_overwrite_deletes",
    "Verif.Sdf.c63_paranoid_not_read"
   ],
   "note": "holds for the shared mode; negation for the other two"
  },
  {
   "property": "C64",
   "status": "proved",
   "theorems": [
    "Verif.Sdf.c64_append",
    "Verif.Sdf.c64_read_back"
   ],
   "note": "byte by byte stopping points"
  },
  {
   "property": "C65",
   "status": "partial",
   "theorems": [
    "Verif.Power.c65_result_partial",
    "Verif.Power.c65_eigenvector_partial",
    "Verif.Power.c65_rate_partial",
    "Verif.Power.c65_matrix",
    "Verif.Power.c65_start",
    "Verif.Power.c65_refused",
    "Verif.Power.c65_conjugated",
    "Verif.Power.c65_more_iterations",
    "Verif.Power.c65_no_eigenvector",
    "Verif.Power.c65_not_a_number"
   ],
   "note": "In exact arithmetic, for all linear maps and starts which the map does not take to zero: direction and length of the vector, the value as a scalar product, the tests, the number of uses and (Hermitian maps) the rate of convergence. False of the code for complex eigenvalues and for the number of iterations (witnesses). Missing: rounding."
  },
  {
   "property": "C66",
   "status": "partial",
   "theorems": [
    "Verif.Fftw.c66_some_partial",
    "Verif.Fftw.c66_all_partial",
    "Verif.Fftw.c66_dim_some",
    "Verif.Fftw.c66_dim_partial",
    "Verif.Fftw.c66_vector_partial",
    "Verif.Fftw.c66_matrix_partial",
    "Verif.Fftw.c66_all_some",
    "Verif.Fftw.c66_in_place",
    "Verif.Fftw.c66_in_place_all",
    "Verif.Fftw.c66_twice_partial",
    "Verif.Fftw.c66_none",
    "Verif.Fftw.c66_one_by_one_partial",
    "Verif.Fftw.c66_refused",
    "Verif.Fftw.c66_undefined",
    "Verif.Fftw.c66_round_trip_partial",
    "Verif.Fftw.c66_parseval_partial",
    "Verif.Fftw.c66_zero_frequency_partial",
    "Verif.Fftw.c66_linear_partial"
   ],
   "note": "Exact arithmetic; FFTW is a contract from its manual. For all ranks, dimensions, marks and both directions, tensors in place or not. Undefined for tensors without indices and transforms along empty indices (c66_undefined)."
  },
  {
   "property": "C67",
   "status": "partial",
   "theorems": [
    "Verif.Svd.c67_svd_partial",
    "Verif.Svd.c67_refused",
    "Verif.Svd.c67_failure_ignored",
    "Verif.Svd.c67_negation_failure"
   ],
   "note": "Exact arithmetic; gesvd is a contract from its manual. For all sizes and combinations of results. False when gesvd reports a failure (c67_negation_failure)."
  },
  {
   "property": "C68",
   "status": "partial",
   "theorems": [
    "Verif.Svd.c68_formula_partial",
    "Verif.Svd.c68_least_squares_partial",
    "Verif.Svd.c68_solution_partial",
    "Verif.Svd.c68_small",
    "Verif.Svd.c68_negation_zero",
    "Verif.Svd.c68_real"
   ],
   "note": "Exact arithmetic; gesvd is a contract from its manual and succeeds. Least squares and smallest norm for all sizes, right hand sides and tolerances which separate the singular values from zero. False for matrices without singular values above the tolerance (c68_small)."
  },
  {
   "property": "C69",
   "status": "partial",
   "theorems": [
    "Verif.Eig.c69_refused",
    "Verif.Eig.c69_real_partial",
    "Verif.Eig.c69_complex_partial",
    "Verif.Eig.c69_negation_left",
    "Verif.Eig.c69_failure_ignored"
   ],
   "note": "Exact arithmetic; geev is a contract from its manual and succeeds. Right vectors as documented, left vectors are those of the adjoint; L A = D L is false (c69_negation_left)."
  },
  {
   "property": "C70",
   "status": "partial",
   "theorems": [
    "Verif.Eig.c70_refused",
    "Verif.Eig.c70_upper_partial",
    "Verif.Eig.c70_hermitian_partial",
    "Verif.Eig.c70_negation_not_hermitian",
    "Verif.Eig.c70_failure_ignored"
   ],
   "note": "Exact arithmetic; syev and heev are contracts from their manual and succeed. Matrices which are not Hermitian are not refused (c70_negation_not_hermitian)."
  },
  {
   "property": "C71",
   "status": "partial",
   "theorems": [
    "Verif.Eig.c71_solve_partial",
    "Verif.Eig.c71_refused",
    "Verif.Eig.c71_negation_rank",
    "Verif.Eig.c71_undefined"
   ],
   "note": "Exact arithmetic; gesv is a contract from its manual. Tensors with more than two indices are not refused (c71_negation_rank); undefined for n = 0 (c71_undefined)."
  },
  {
   "property": "C72",
   "status": "partial",
   "theorems": [
    "Verif.Svd.c72_thin_partial",
    "Verif.Svd.c72_values_partial",
    "Verif.Svd.c72_values_only",
    "Verif.Svd.c72_orthonormal_partial",
    "Verif.Svd.c72_rectangular",
    "Verif.Svd.c72_negation_blocks",
    "Verif.Svd.c72_negation_zero",
    "Verif.Svd.c72_square_partial",
    "Verif.Svd.c72_negation_mixed"
   ],
   "note": "Exact arithmetic; gesvd is a contract from its manual and succeeds. Columns of U and rows of VT of the singular value zero may be zero (c72_negation_zero), and square matrices with other blocks stop the program without `economic` (c72_negation_blocks)."
  },
  {
   "property": "C73",
   "status": "partial",
   "theorems": [
    "Verif.Arpack.c73_refused",
    "Verif.Arpack.c73_complex_partial",
    "Verif.Arpack.c73_real_partial",
    "Verif.Arpack.c73_symmetric_partial",
    "Verif.Arpack.c73_negation_left",
    "Verif.Arpack.c73_negation_real",
    "Verif.Arpack.c73_undefined_type"
   ],
   "note": "Exact arithmetic; dgeev and zgeev are contracts from their manual and succeed. Eigenvectors for normal matrices, and real eigenvalues for real symmetric ones: for others the property is false (c73_negation_left, c73_negation_real)."
  },
  {
   "property": "C74",
   "status": "proved",
   "theorems": [
    "Verif.Arpack.c74_construct",
    "Verif.Arpack.c74_refused",
    "Verif.Arpack.c74_negation_type",
    "Verif.Arpack.c74_negation_nev",
    "Verif.Arpack.c74_negation_message",
    "Verif.Arpack.c74_protocol",
    "Verif.Arpack.c74_order",
    "Verif.Arpack.c74_negation_maxiter",
    "Verif.Arpack.c74_start_vector"
   ],
   "note": "The library and rand are parameters, with the contract of the manual. The type 6 (c74_negation_type), nev = n - 1 for complex numbers (c74_negation_nev), set_maxiter(0) (c74_negation_maxiter) and error_message without an error (c74_negation_message) contradict the property as a user would wish it."
  },
  {
   "property": "C75",
   "status": "partial",
   "theorems": [
    "Verif.Arpack.c75_matrix",
    "Verif.Arpack.c75_refused",
    "Verif.Arpack.c75_complex_partial",
    "Verif.Arpack.c75_symmetric_partial",
    "Verif.Arpack.c75_negation_zeros",
    "Verif.Arpack.c75_negation_order",
    "Verif.Arpack.c75_negation_real"
   ],
   "note": "The library is a contract from its manual, in exact arithmetic. Eigenvalues for complex matrices and real symmetric ones; for other real matrices the property is false (c75_negation_real), and the order is not that of the type (c75_negation_order)."
  },
  {
   "property": "C76",
   "status": "partial",
   "theorems": [
    "Verif.Arpack.c76_large",
    "Verif.Arpack.c76_complex_small",
    "Verif.Arpack.c76_real_partial",
    "Verif.Arpack.c76_symmetric_partial",
    "Verif.Arpack.c76_refused",
    "Verif.Arpack.c76_sparse_large",
    "Verif.Arpack.c76_sparse_complex_small",
    "Verif.Arpack.c76_negation_tall",
    "Verif.Arpack.c76_negation_wide"
   ],
   "note": "The libraries are contracts from their manuals, in exact arithmetic. For real functions with n <= 4 the result is not that of eigs of the matrix (another LAPACK function is called): eigenvalues for any matrix as real parts, and eigenvectors for symmetric ones. Sparse matrices which are not square contradict it (c76_negation_tall, c76_negation_wide)."
  },
  {
   "property": "C77",
   "status": "partial",
   "theorems": [
    "Verif.Machine.c77_total_size",
    "Verif.Machine.c77_total_size_empty",
    "Verif.Machine.c77_total_size_zero",
    "Verif.Machine.c77_total_size_negative",
    "Verif.Machine.c77_make_partial",
    "Verif.Machine.c77_negation_large",
    "Verif.Machine.c77_negation_wrap",
    "Verif.Machine.c77_negation_wrap_complex",
    "Verif.Machine.c77_negation_zero",
    "Verif.Machine.c77_negation_negative",
    "Verif.Machine.c77_negation_least",
    "Verif.Machine.c77_read",
    "Verif.Machine.c77_write",
    "Verif.Machine.c77_reshape_partial",
    "Verif.Machine.c77_negation_reshape",
    "Verif.Machine.c77_surrounding_partial",
    "Verif.Machine.c77_range_partial",
    "Verif.Machine.c77_negation_range",
    "Verif.Machine.c77_safe_size",
    "Verif.Machine.c77_safe_size_empty",
    "Verif.Machine.c77_negation_sparse"
   ],
   "note": "Holds for nonzero dimensions with a product below 2^63, for access to all tensors which exist, and for ranges which end one step before the greatest number. Larger products, zeros after large dimensions, negative dimensions and the ends of ranges contradict it (c77_negation_*). Contractions in machine words are C94, slices C106; permute and kron C112."
  },
  {
   "property": "C78",
   "status": "partial",
   "theorems": [
    "Verif.Dataset.c78_names",
    "Verif.Dataset.c78_negation_names",
    "Verif.Dataset.c78_complete_partial",
    "Verif.Dataset.c78_kept_partial",
    "Verif.Dataset.c78_saved_partial",
    "Verif.Dataset.c78_others_partial",
    "Verif.Dataset.c78_ends_partial",
    "Verif.Dataset.c78_negation_incomplete",
    "Verif.Dataset.c78_negation_lost"
   ],
   "note": "Holds for all executions in which two processes with the same record do not run at the same time; false without this (c78_negation_incomplete, c78_negation_lost) and for job numbers above 2^32 (c78_negation_names)."
  },
  {
   "property": "C79",
   "status": "partial",
   "theorems": [
    "Verif.Py.c79_read_partial",
    "Verif.Py.c79_ends",
    "Verif.Py.c79_negation_no_name",
    "Verif.Py.c79_negation_vector",
    "Verif.Py.c79_negation_same_name",
    "Verif.Py.c79_negation_utf8",
    "Verif.Py.c79_negation_sdf",
    "Verif.Py.c79_negation_rank",
    "Verif.Py.c79_negation_no_variables",
    "Verif.Py.c79_negation_order",
    "Verif.Py.c79_negation_truncated",
    "Verif.Py.c79_negation_header"
   ],
   "note": "Proved for files whose variables have UTF-8 names which are not empty and do not begin with sdf, and tensors with at least one index; c79_read_partial keeps only the last variable with each name and gives empty lists for vectors. False otherwise (the negations)."
  },
  {
   "property": "C80",
   "status": "partial",
   "theorems": [
    "Verif.Py.c80_combine",
    "Verif.Py.c80_dataset_partial",
    "Verif.Py.c80_negation_vector",
    "Verif.Py.c80_names",
    "Verif.Py.c80_negation_unfinished",
    "Verif.Py.c80_unfinished",
    "Verif.Py.c80_no_files"
   ],
   "note": "Proved for variables of the first file which are arrays with the same dimensions in all files; false if the first file of the directory is empty (c80_negation_unfinished) or lacks a variable (c80_names)."
  },
  {
   "property": "C81",
   "status": "partial",
   "theorems": [
    "Verif.SparseIter.c81_cgs",
    "Verif.SparseIter.c81_power_right",
    "Verif.SparseIter.c81_negation_power_left",
    "Verif.SparseIter.c81_cgs_converges"
   ],
   "note": "Proved for cgs and eig_power_right of all sparse matrices with columns; eig_power_left never gives a result (c81_negation_power_left)."
  },
  {
   "property": "C82",
   "status": "partial",
   "theorems": [
    "Verif.Parts.c82_parts",
    "Verif.Parts.c82_round_trip",
    "Verif.Parts.c82_make_partial",
    "Verif.Parts.c82_negation_short",
    "Verif.Parts.c82_negation_dimensions",
    "Verif.Parts.c82_embedding",
    "Verif.Parts.c82_conj",
    "Verif.Parts.c82_sparse",
    "Verif.Parts.c82_sparse_conj",
    "Verif.Parts.c82_sparse_embedding",
    "Verif.Parts.c82_negation_sparse"
   ],
   "note": "Proved for all tensors and sparse matrices except to_complex with two tensors of different dimensions, which are not refused (c82_negation_short, c82_negation_dimensions), and the comparison with all_equal of sparse matrices (c82_negation_sparse)."
  },
  {
   "property": "C83",
   "status": "partial",
   "theorems": [
    "Verif.Text.c83_vector",
    "Verif.Text.c83_indices",
    "Verif.Text.c83_tensor",
    "Verif.Text.c83_matrix_partial",
    "Verif.Text.c83_negation_no_rows",
    "Verif.Text.c83_vector_form",
    "Verif.Text.c83_negation_vector",
    "Verif.Text.c83_negation_rank"
   ],
   "note": "Proved for vectors, indices, tensors and matrix_form of matrices with rows; matrix_form does not tell matrices without rows, nor vectors from matrices with one row (the negations)."
  },
  {
   "property": "C84",
   "status": "partial",
   "theorems": [
    "Verif.Fl.c84_nan",
    "Verif.Fl.c84_sum_finite",
    "Verif.Fl.c84_sum_infinities",
    "Verif.Fl.c84_mean_empty",
    "Verif.Fl.c84_norm2",
    "Verif.Fl.c84_sqrt",
    "Verif.Fl.c84_negation_norm0",
    "Verif.Fl.c84_negation_max",
    "Verif.Fl.c84_negation_norminf",
    "Verif.Fl.c84_negation_cgs",
    "Verif.CFl.c84_complex_sum",
    "Verif.CFl.c84_complex_scprod",
    "Verif.CFl.c84_complex_norm2",
    "Verif.CFl.c84_negation_complex"
   ],
   "note": "Proved for sum, mean, norm2, scprod and the elementwise sqrt; norm0, max, min, matrix_norminf and cgs hide NaN (the negations). For complex tensors the same is proved of sum, and of scprod and norm2 without infinities and overflow; with them annex G of C may turn NaN into an infinity (c84_negation_complex)."
  },
  {
   "property": "C85",
   "status": "partial",
   "theorems": [
    "Verif.Fl.c85_sum",
    "Verif.Fl.c85_scprod",
    "Verif.Fl.c85_mean",
    "Verif.Fl.c85_negation_overflow",
    "Verif.Fl.c85_negation_underflow",
    "Verif.Fl.c85_norm2_partial",
    "Verif.CFl.c85_complex_sum",
    "Verif.CFl.c85_complex_mean",
    "Verif.CFl.c85_complex_scprod",
    "Verif.CFl.c85_complex_norm2_partial",
    "Verif.CFl.c85_negation_complex_overflow",
    "Verif.CFl.c85_negation_complex_underflow"
   ],
   "note": "Proved for sum, mean and scprod of doubles and of complex doubles, and for norm2 unless squares over- or underflow, where it is false (c85_negation_overflow, c85_negation_underflow, and the same for complex doubles); the absolute error when squares underflow is in C119 and C128."
  },
  {
   "property": "C86",
   "status": "partial",
   "theorems": [
    "Verif.Fl.c86_linspace_partial",
    "Verif.Fl.c86_negation_last",
    "Verif.Fl.c86_negation_overflow"
   ],
   "note": "Proved for ends up to 2^1022 except the last element, which can be on either side of the end (c86_negation_last); false if the difference of the ends overflows (c86_negation_overflow)."
  },
  {
   "property": "C87",
   "status": "partial",
   "theorems": [
    "Verif.Mat.c87_read_partial",
    "Verif.Mat.c87_negation_vector",
    "Verif.Mat.c87_negation_same",
    "Verif.Mat.c87_negation_stop",
    "Verif.Mat.c87_negation_sdf",
    "Verif.Mat.c87_negation_lengths",
    "Verif.Mat.c87_negation_name",
    "Verif.Mat.c87_negation_cut",
    "Verif.Mat.c87_longs",
    "Verif.Mat.c87_negation_list_same",
    "Verif.Mat.c87_negation_cut_complex",
    "Verif.Mat.c87_zero",
    "Verif.Mat.c87_negation_zero_same",
    "Verif.Mat.c87_negation_zero_lost"
   ],
   "note": "Proved for tensors with elements or with at least two indices, numbers, and names which Matlab accepts and which do not begin with sdf, if variables with the same name have the same dimensions; false otherwise, and for vectors without elements and matrices without rows and columns, see the negations. Complex vectors without elements are not covered."
  },
  {
   "property": "C88",
   "status": "partial",
   "theorems": [
    "Verif.Mat.c88_dataset_partial",
    "Verif.Mat.c88_negation_path",
    "Verif.Mat.c88_negation_avoid",
    "Verif.Mat.c88_negation_mismatch"
   ],
   "note": "Proved if the names were not avoided before and the files are in the directory which remains after the last part of the path is cut; false otherwise (c88_negation_path, c88_negation_mismatch, c88_negation_avoid)."
  },
  {
   "property": "C89",
   "status": "partial",
   "theorems": [
    "Verif.TicToc.c89_toc_partial",
    "Verif.TicToc.c89_toc_since",
    "Verif.TicToc.c89_negation_no_tic",
    "Verif.TicToc.c89_negation_clock"
   ],
   "note": "Proved for clocks between 1970 and 2038 if tic() was called before; toc() is not negative if the clock was not set back. False without (c89_negation_no_tic, c89_negation_clock)."
  },
  {
   "property": "C90",
   "status": "partial",
   "theorems": [
    "Verif.IsDir.c90_isdir_partial",
    "Verif.IsDir.c90_none",
    "Verif.IsDir.c90_negation_kind",
    "Verif.IsDir.c90_make"
   ],
   "note": "make_directory is proved; isdir is proved except for block devices and sockets, where it is false (c90_negation_kind)."
  },
  {
   "property": "C91",
   "status": "partial",
   "theorems": [
    "Verif.FlCmp.c91_tensor_first",
    "Verif.FlCmp.c91_number_first_partial",
    "Verif.FlCmp.c91_negation_number_first",
    "Verif.FlCmp.c91_all_equal",
    "Verif.FlCmp.c91_self",
    "Verif.FlCmp.c91_sort",
    "Verif.FlCmp.c91_sort_numbers",
    "Verif.FlCmp.c91_sort_indices",
    "Verif.FlCmp.c91_negation_nan"
   ],
   "note": "Comparisons with the tensor first and all_equal are proved; with the number first they are proved at elements which are not equal to it, and false at others (c91_negation_number_first). Sorting is proved without NaN, and is undefined with NaN and two different numbers (c91_negation_nan)."
  },
  {
   "property": "C92",
   "status": "partial",
   "theorems": [
    "Verif.ArpackSort.c92_symmetric",
    "Verif.ArpackSort.c92_complex",
    "Verif.ArpackSort.c92_nonsymmetric",
    "Verif.ArpackSort.c92_pairs_partial",
    "Verif.ArpackSort.c92_negation_pairs"
   ],
   "note": "The choice is proved for real, complex and nonsymmetric problems. That complex conjugate values stay together is proved if only such values are asked for equally, and false otherwise (c92_negation_pairs)."
  },
  {
   "property": "C93",
   "status": "partial",
   "theorems": [
    "Verif.ArpackSort.c93_symmetric_partial",
    "Verif.ArpackSort.c93_complex_partial",
    "Verif.ArpackSort.c93_negation_ties",
    "Verif.ArpackSort.c93_negation_info"
   ],
   "note": "Proved for values no two of which are asked for equally; false with ties (c93_negation_ties). For real problems a failure may be reported although all values have converged (c93_negation_info)."
  },
  {
   "property": "C94",
   "status": "partial",
   "theorems": [
    "Verif.Machine.c94_fold_partial",
    "Verif.Machine.c94_fold_64",
    "Verif.Machine.c94_foldin_partial",
    "Verif.Machine.c94_mmult",
    "Verif.Machine.c94_positions",
    "Verif.Machine.c94_negation_int",
    "Verif.Machine.c94_negation_int_rejected",
    "Verif.Machine.c94_negation_outer"
   ],
   "note": "Proved with BLAS integers of 64 bits for tensors below 2^59 elements without empty dimensions, and with integers of any number of bits if the sizes which are passed to gemm fit in them. False with integers of 32 bits for larger dimensions (c94_negation_int) and if the size of the result overflows (c94_negation_outer)."
  },
  {
   "property": "C95",
   "status": "partial",
   "theorems": [
    "Verif.GemmFl.c95_fold_partial",
    "Verif.GemmFl.c95_foldin_partial",
    "Verif.GemmFl.c95_nan_partial",
    "Verif.GemmFl.c95_mmult_partial",
    "Verif.GemmFl.c95_exists",
    "Verif.GemmFl.c95_bound",
    "Verif.GemmFl.c95_negation_order",
    "Verif.GemmFl.c95_negation_overflow",
    "Verif.GemmFl.c95_negation_nan"
   ],
   "note": "Proved if the products are so small that no order overflows; false otherwise (c95_negation_overflow), and the relative error is not bounded (c95_negation_order). NaN is passed on unless it is multiplied with zero (c95_negation_nan). Complex numbers: C102. Finite elements are accurate without any condition (C128)."
  },
  {
   "property": "C96",
   "status": "partial",
   "theorems": [
    "Verif.Threads.c96_threads_partial",
    "Verif.Threads.c96_atomic",
    "Verif.Threads.c96_negation_leak",
    "Verif.Threads.c96_negation_released",
    "Verif.Threads.c96_negation_aliasing"
   ],
   "note": "Proved for all orders if threads only read the elements of tensors which they share (c96_threads_partial), and for tensors shared in any way if statements are not interrupted (c96_atomic). False otherwise: copying and destroying change the counter without synchronisation (c96_negation_*)."
  },
  {
   "property": "C97",
   "status": "partial",
   "theorems": [
    "Verif.ViewHeap.c97_views_partial",
    "Verif.ViewHeap.c97_snapshot",
    "Verif.ViewHeap.c97_negation_reused",
    "Verif.ViewHeap.c97_negation_twice",
    "Verif.ViewHeap.c97_negation_same",
    "Verif.ViewHeap.c97_negation_shared",
    "Verif.ViewHeap.c97_negation_leak",
    "Verif.ViewHeap.c97_negation_resized",
    "Verif.ViewHeap.c97_negation_ended"
   ],
   "note": "Proved for all programs in which each range is used once and mutable views only while the tensor keeps its dimensions (c97_views_partial), and that views are copies (c97_snapshot). False for other programs (c97_negation_*)."
  },
  {
   "property": "C98",
   "status": "partial",
   "theorems": [
    "Verif.Tensor.c98_chain",
    "Verif.Tensor.c98_operators_partial",
    "Verif.Tensor.c98_negation_operators",
    "Verif.Tensor.c98_commute",
    "Verif.Tensor.c98_identity",
    "Verif.Tensor.c98_diagonal",
    "Verif.Tensor.c98_exchange",
    "Verif.Tensor.c98_foldin_ends_partial",
    "Verif.Tensor.c98_vec_partial",
    "Verif.Tensor.c98_kron_transpose",
    "Verif.Tensor.c98_kron_trace"
   ],
   "note": "Proved for all tensors, with the cases where the program stops, if the dimension between two matrices is not zero (c98_operators_partial; c98_negation_operators otherwise). For foldin at the ends, not both operands are vectors (C21)."
  },
  {
   "property": "C99",
   "status": "partial",
   "theorems": [
    "Verif.ElemRef.c99_references_partial",
    "Verif.ElemRef.c99_assign_element",
    "Verif.ElemRef.c99_negation_write_after_copy",
    "Verif.ElemRef.c99_negation_constant_reference",
    "Verif.ElemRef.c99_negation_dangling",
    "Verif.ElemRef.c99_negation_assignment",
    "Verif.ElemRef.c99_negation_unset"
   ],
   "note": "Proved for all programs which keep to the rules of Spec/ElemRef.lean (c99_references_partial) and for assignments of elements (c99_assign_element). Outside of the rules it is false (negations)."
  }
 ]
}