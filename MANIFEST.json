{
 "claims": [
  {
   "property": "C01",
   "status": "proved",
   "theorems": [
    "Repro.C01_sum_is_spec",
    "Repro.C01_order_independent"
   ],
   "note": ""
  },
  {
   "property": "C02",
   "status": "proved",
   "theorems": [
    "Repro.C02_reduction_tree",
    "Repro.C02_trees_agree"
   ],
   "note": ""
  },
  {
   "property": "C03",
   "status": "proved",
   "theorems": [
    "Repro.C03_merge_comm",
    "Repro.C03_merge_assoc",
    "Repro.C03_merge_zero"
   ],
   "note": ""
  },
  {
   "property": "C04",
   "status": "proved",
   "theorems": [
    "Repro.C04_sum_is_sequential",
    "Repro.C04_independent",
    "Repro.C04_split"
   ],
   "note": ""
  },
  {
   "property": "C05",
   "status": "proved",
   "theorems": [
    "Repro.C05_kernel"
   ],
   "note": ""
  },
  {
   "property": "C06",
   "status": "proved",
   "theorems": [
    "Repro.C06_protocol"
   ],
   "note": ""
  },
  {
   "property": "C07",
   "status": "proved",
   "theorems": [
    "Repro.C07_endurance",
    "Repro.C07_endurance_tight_double",
    "Repro.C07_endurance_tight_float"
   ],
   "note": ""
  },
  {
   "property": "C08",
   "status": "proved",
   "theorems": [
    "Repro.C08_capacity"
   ],
   "note": ""
  },
  {
   "property": "C09",
   "status": "proved",
   "theorems": [
    "Repro.C09_renorm"
   ],
   "note": ""
  },
  {
   "property": "C10",
   "status": "proved",
   "theorems": [
    "Repro.C10_index_brackets",
    "Repro.C10_index_monotone",
    "Repro.C10_index_special"
   ],
   "note": ""
  },
  {
   "property": "C11",
   "status": "proved",
   "theorems": [
    "Repro.C11_bins",
    "Repro.C11_index_of_value",
    "Repro.C11_add_keeps_index"
   ],
   "note": ""
  },
  {
   "property": "C12",
   "status": "proved",
   "theorems": [
    "Repro.C12_update_index",
    "Repro.C12_update_idem",
    "Repro.C12_update_comm",
    "Repro.C12_update_anywhere"
   ],
   "note": ""
  },
  {
   "property": "C13",
   "status": "proved",
   "theorems": [
    "Repro.C13_special_values",
    "Repro.C13_order_independent"
   ],
   "note": ""
  },
  {
   "property": "C14",
   "status": "partial",
   "theorems": [
    "Repro.C14_special_values",
    "Repro.C14_reproducible_partial",
    "Repro.C14_violated"
   ],
   "note": "False of the code in general: C14_violated proves a witness (dsum of [MAX,MAX,-Inf] is NaN, of [-Inf,MAX,MAX] is -Inf) because the Inf branch accumulates natively. Proved for all vectors: NaN / opposite infinities always give NaN, an infinity always gives that infinity or NaN; and full reproducibility when finite numbers are below 2^(MAX_EXP-W)."
  },
  {
   "property": "C15",
   "status": "proved",
   "theorems": [
    "Repro.C15_negate_then_add",
    "Repro.C15_negate_then_merge",
    "Repro.C15_negate_value",
    "Repro.C15_negate_twice",
    "Repro.C15_negate_convert",
    "Repro.C15_conversion_not_odd"
   ],
   "note": ""
  },
  {
   "property": "C16",
   "status": "proved",
   "theorems": [
    "Repro.C16_error_unit",
    "Repro.C16_error_relative"
   ],
   "note": ""
  },
  {
   "property": "C17",
   "status": "partial",
   "theorems": [
    "Repro.C17_bound_partial",
    "Repro.C17_routines_partial",
    "Repro.C17_violated_tiny",
    "Repro.C17_violated_fold",
    "Repro.C17_violated_many"
   ],
   "note": "Proved for every list of N < 2^31 (double) / N <= 2^25 + 1 (float) finite numbers and every fold >= 2 when the largest input is big enough for all bins above the smallest (or no bit is dropped) and the bound's own factor does not underflow. The remaining regimes are refuted by concrete witnesses: tiny numbers, double folds >= 28, and float sums of 2^25 + 2 numbers (the limit 2^25 + 1 is sharp for the default fold). C17_routines_partial carries the bound to the array routines: dbbound with the amax (amaxm) of the arguments bounds the error of rdsum, rdasum and rddot, for every stride and tuning."
  },
  {
   "property": "C18",
   "status": "proved",
   "theorems": [
    "Repro.C18_round_trip",
    "Repro.C18_round_trip_error",
    "Repro.C18_large"
   ],
   "note": "Exact conversion model incl. the double and float routines and the large-index special path."
  },
  {
   "property": "C19",
   "status": "proved",
   "theorems": [
    "Repro.C19_cancellation",
    "Repro.C19_sequences"
   ],
   "note": ""
  },
  {
   "property": "C20",
   "status": "proved",
   "theorems": [
    "Repro.C20_asum_is_sequential",
    "Repro.C20_independent",
    "Repro.C20_nonneg"
   ],
   "note": ""
  },
  {
   "property": "C21",
   "status": "proved",
   "theorems": [
    "Repro.C21_dot_is_sequential",
    "Repro.C21_independent",
    "Repro.C21_swap"
   ],
   "note": "Products are rounded before they are added (no FMA contraction)."
  },
  {
   "property": "C22",
   "status": "proved",
   "theorems": [
    "Repro.C22_operation",
    "Repro.C22_merge",
    "Repro.C22_set",
    "Repro.C22_set_real"
   ],
   "note": ""
  },
  {
   "property": "C23",
   "status": "partial",
   "theorems": [
    "Repro.C23_conversion_partial",
    "Repro.C23_packed",
    "Repro.C23_violated"
   ],
   "note": "the full property is false of the code: carry stride inc+1 is passed instead of 2*inc; proved for carry stride 1 and for the packed layout, with a witness of the violation"
  },
  {
   "property": "C24",
   "status": "proved",
   "theorems": [
    "Repro.Fmt.C24_gemv",
    "Repro.Fmt.C24_layout",
    "Repro.Fmt.C24_nothing"
   ],
   "note": "Real matrix-vector products (dbdgemv, sbsgemv): tiling, packing, scaling by alpha and column-major redirection modelled; the dot product call is the modelled dmddot with arbitrary tuning. Complex variants: see C45, C47."
  },
  {
   "property": "C25",
   "status": "proved",
   "theorems": [
    "Repro.Fmt.C25_gemm",
    "Repro.Fmt.C25_layout",
    "Repro.Fmt.C25_nothing"
   ],
   "note": "Real matrix-matrix products (dbdgemm, sbsgemm), all eight layout branches."
  },
  {
   "property": "C26",
   "status": "proved",
   "theorems": [
    "Repro.Fmt.C26_gemv",
    "Repro.Fmt.C26_gemv_empty",
    "Repro.Fmt.C26_gemm"
   ],
   "note": "rdgemv, rdgemm, rsgemv, rsgemm. rdgemv with an empty dimension leaves Y unscaled (C26_gemv_empty); rdgemm with an empty inner dimension scales by beta."
  },
  {
   "property": "C27",
   "status": "proved",
   "theorems": [
    "Repro.C27_reduce",
    "Repro.C27_any_tree",
    "Repro.C27_reduce_special"
   ],
   "note": "transition system of messages over packed buffers in memory; every schedule, segmentation and operand order; finite data get the bits of the sequential sum, other data convert alike"
  },
  {
   "property": "C28",
   "status": "partial",
   "theorems": [
    "Repro.C28_element_partial",
    "Repro.C28_tree_partial",
    "Repro.C28_reduce_partial",
    "Repro.C28_violated"
   ],
   "note": "The vector routine discards the returned scale: C28_element_partial characterises one operation on memory (right exactly if the incoming scale is not larger), C28_reduce_partial proves whole reductions when all scales are equal, C28_violated is the counterexample (two ranks)."
  },
  {
   "property": "C29",
   "status": "proved",
   "theorems": [
    "Repro.C29_ssq_is_spec",
    "Repro.C29_start",
    "Repro.C29_folds",
    "Repro.C29_independent",
    "Repro.C29_split",
    "Repro.C29_merge",
    "Repro.C29_large_fold_violated"
   ],
   "note": "The code equals a specification that only depends on the multiset of elements: scale of the largest magnitude, and the canonical binned sum of the squares of x/scale. Continuation, splitting, merging (dmdmaddsq) and the derived norm. Folds up to 22 (double) and 6 (float); C29_large_fold_violated shows that the property is false for folds 25 and 9."
  },
  {
   "property": "C30",
   "status": "proved",
   "theorems": [
    "Repro.Fmt.C30_scale",
    "Repro.Fmt.C30_monotone",
    "Repro.Fmt.C30_doc_violated"
   ],
   "note": "Both precisions. The documented lower bound is refuted for the smallest subnormals (C30_doc_violated)."
  },
  {
   "property": "C31",
   "status": "proved",
   "theorems": [
    "Repro.C31_operation",
    "Repro.C31_programs",
    "Repro.C31_convert",
    "Repro.C31_sum_in_memory"
   ],
   "note": "memory-level model of every operation; any strides whose addresses are pairwise distinct"
  },
  {
   "property": "C32",
   "status": "proved",
   "theorems": [
    "Repro.C32_packed_array",
    "Repro.C32_reads",
    "Repro.C32_fold_one_violated"
   ],
   "note": "fold >= 2: arbitrary programs over an array of packed values write and read only inside dbnum words per value; for fold 1 the documented size is violated (witness)"
  },
  {
   "property": "C33",
   "status": "proved",
   "theorems": [
    "Repro.C33_amax",
    "Repro.C33_order_independent",
    "Repro.C33_amaxm",
    "Repro.C33_nan_order_dependent"
   ],
   "note": ""
  },
  {
   "property": "C34",
   "status": "partial",
   "theorems": [
    "Repro.C34_ufpf",
    "Repro.C34_ufp_partial",
    "Repro.C34_ufp_violated"
   ],
   "note": "Single precision proved for every normal float. The double version is proved in the float range and refuted outside it (helper UFP returns float)."
  },
  {
   "property": "C35",
   "status": "proved",
   "theorems": [
    "Repro.C35_addv",
    "Repro.C35_zaddv"
   ],
   "note": ""
  },
  {
   "property": "C36",
   "status": "proved",
   "theorems": [
    "Repro.C36_wrappers",
    "Repro.C36_sum_reproducible",
    "Repro.C36_default_fold"
   ],
   "note": ""
  },
  {
   "property": "C37",
   "status": "proved",
   "theorems": [
    "Repro.C37_every_element_once",
    "Repro.C37_loads_in_bounds"
   ],
   "note": ""
  },
  {
   "property": "C38",
   "status": "proved",
   "theorems": [
    "Repro.C38_range",
    "Repro.C38_keeps",
    "Repro.C38_next_power",
    "Repro.C38_total",
    "Repro.C38_nearest",
    "Repro.C38_arguments",
    "Repro.C38_declared",
    "Repro.C38_build",
    "Repro.C38_same_results",
    "Repro.C38_gemv",
    "Repro.C38_coerce"
   ],
   "note": "Python's round of a float quotient is an arbitrary function in the model (only C38_nearest assumes it is a nearest integer). PowerOfTwoParameter's constructor does not check minimum <= maximum; the theorems take the order as hypothesis, which all declared parameters satisfy. Printed warnings and metrics of the kernel targets are not modelled."
  },
  {
   "property": "C39",
   "status": "proved",
   "theorems": [
    "Repro.C39_collect",
    "Repro.C39_roundtrip",
    "Repro.C39_consistent",
    "Repro.C39_defaults"
   ],
   "note": "Dictionaries are association lists, sets are lists compared by membership, JSON reload sorts keys. File system errors are not modelled."
  },
  {
   "property": "C40",
   "status": "partial",
   "theorems": [
    "Repro.C40_sum_product_partial",
    "Repro.C40_literals_partial",
    "Repro.C40_mod_partial",
    "Repro.C40_index",
    "Repro.C40_increment",
    "Repro.C40_violated",
    "Repro.C40_fdiv_violated"
   ],
   "note": "The full claim is false of the code for % and //: mix('%', 7, 'x') is (x % 7), mix('%', 'x', 7, 3) is (x % 1), and a symbolic // is a C comment (C40_violated, C40_fdiv_violated). Proved: every mixture for + and *, all literals for every operator, symbols followed by one literal for %, and all address and increment expressions the generator builds. Values are unbounded integers."
  },
  {
   "property": "C41",
   "status": "proved",
   "theorems": [
    "Repro.C41_exact"
   ],
   "note": ""
  },
  {
   "property": "C42",
   "status": "partial",
   "theorems": [
    "Repro.C42_dot_partial",
    "Repro.C42_shipped_partial",
    "Repro.C42_independent_partial",
    "Repro.C42_other_part_partial",
    "Repro.C42_violated"
   ],
   "note": "Proved for every tuning when no block holds more than endurance/2 elements: vectors of up to 1024 (double) / 256 (single) elements with every tuning including the shipped one (C42_shipped_partial), any length for tunings with smaller blocks. FINDING: the shipped block size (N_block_MAX = endurance) makes 2*endurance deposits per block; C42_violated is a kernel-checked run with 512 moderate single precision elements whose native result is -8387968 instead of just under 256."
  },
  {
   "property": "C43",
   "status": "partial",
   "theorems": [
    "Repro.C43_complex_reduce_partial",
    "Repro.C43_violated"
   ],
   "note": "false of the code for double precision complex (ZBZBADD registers functions that call dbdbaddv): witness; proved for the single precision operation"
  },
  {
   "property": "C44",
   "status": "proved",
   "theorems": [
    "Repro.C44_handles",
    "Repro.C44_largest_fold_violated"
   ],
   "note": "supported folds 2..maxIndex; the largest fold maxIndex+1 is shown to be unsupported"
  },
  {
   "property": "C45",
   "status": "partial",
   "theorems": [
    "Repro.C45_gemv_partial",
    "Repro.C45_shipped_partial",
    "Repro.C45_layout_partial",
    "Repro.C45_rzgemv_partial",
    "Repro.C45_nothing",
    "Repro.C45_violated",
    "Repro.C66_rzgemv_partial",
    "Repro.C45_matrices_partial"
   ],
   "note": "The claim is false of the code: C45_violated (column-major conjugate transposed, dot length N - j instead of M - j: wrong result for N < M, read out of bounds for N > M). Proved for every other case and for square matrices, if the dot product calls (bounded by tuning, tile and number of columns) have at most endurance/2 elements (see C42); C45_shipped_partial instantiates this for the shipped tiles."
  },
  {
   "property": "C46",
   "status": "proved",
   "theorems": [
    "Repro.C46_packT",
    "Repro.C46_pack",
    "Repro.C46_scale",
    "Repro.C46_needs_powers_of_two"
   ],
   "note": "Work buffers of the real matrix products: writes stay within the allocated elements. Reads of the buffers are covered by C24/C25: results do not depend on the initial buffer contents."
  },
  {
   "property": "C47",
   "status": "partial",
   "theorems": [
    "Repro.C47_gemm_partial",
    "Repro.C47_shipped_partial",
    "Repro.C47_layout_partial",
    "Repro.C47_rzgemm_partial",
    "Repro.C47_nothing",
    "Repro.C47_violated",
    "Repro.C66_rzgemm_partial",
    "Repro.C47_matrices_partial"
   ],
   "note": "The claim is false of the code: C47_violated (column-major, A transposed or conjugate transposed, alpha != 1: alpha[1] used for alpha[0], zbzgemm.ccog:655, 754, 799, 850). Proved for all row-major cases, for A not transposed, and for alpha = 1, if the dot product calls have at most endurance/2 elements (see C42); the shipped tiles of the double precision routine satisfy this for all sizes and every tuning (C47_shipped_partial), those of single precision (512, 1024) do not."
  },
  {
   "property": "C48",
   "status": "proved",
   "theorems": [
    "Repro.C48_sum",
    "Repro.C48_sum_re",
    "Repro.C48_sum_im",
    "Repro.C48_independent",
    "Repro.C48_asum",
    "Repro.C48_asum_independent"
   ],
   "note": "Sum, one-part isolation, absolute sum and the native wrappers, for every tuning."
  },
  {
   "property": "C49",
   "status": "proved",
   "theorems": [
    "Repro.C49_conversion_error"
   ],
   "note": "Accumulators reaching into bins past the smallest one (results of a few hundred units in the last subnormal place) are excluded by hypothesis hlow."
  },
  {
   "property": "C50",
   "status": "proved",
   "theorems": [
    "Repro.C50_special_norm",
    "Repro.C50_scale_one"
   ],
   "note": "Real vectors, both precisions."
  },
  {
   "property": "C51",
   "status": "proved",
   "theorems": [
    "Repro.C51_ssq_is_spec",
    "Repro.C51_independent",
    "Repro.C51_as_real",
    "Repro.C51_split"
   ],
   "note": "Folds 2..22 (double) and 2..6 (float), see C29_folds; larger folds are refuted for real vectors by C29_large_fold_violated. The wrong array element probed by zmdrescale/cmsrescale (finding 5) is modelled and shown harmless for these folds."
  },
  {
   "property": "C52",
   "status": "proved",
   "theorems": [
    "Repro.C52_asum",
    "Repro.C52_norm"
   ],
   "note": "Absolute sum on top of any finite history; norm from an empty accumulator (what the reproBLAS routines do). Continuing an earlier sum of squares is C53."
  },
  {
   "property": "C53",
   "status": "partial",
   "theorems": [
    "Repro.C53_real",
    "Repro.C53_complex_partial",
    "Repro.C53_violated",
    "Repro.C53_merge_violated"
   ],
   "note": "Proved in full for real vectors. For complex vectors NaN is right and an infinity gives +Inf or NaN; the full claim is false of the code (C53_violated; C53_merge_violated for merging partial results): the infinite result is divided by an overflowed scale factor."
  },
  {
   "property": "C54",
   "status": "proved",
   "theorems": [
    "Repro.C54_sum"
   ],
   "note": "Both parts, other part arbitrary. Exact (order independent) infinity under the index >= 1 condition; without it the real case is already violated (C14_violated)."
  },
  {
   "property": "C55",
   "status": "partial",
   "theorems": [
    "Repro.C55_dot_partial",
    "Repro.C55_nan",
    "Repro.C55_specials"
   ],
   "note": "C55_specials: for every block size, length and accumulator, a NaN product or products of both infinite signs give NaN and an infinite product gives that infinity or NaN in its part. Missing for blocks of more than half the endurance (where the shipped block size breaks the endurance, C42_violated): that a part without special products stays finite and that the infinity itself, not NaN, is returned; C55_dot_partial has these for the other blocks."
  },
  {
   "property": "C56",
   "status": "proved",
   "theorems": [
    "Repro.C56_norm",
    "Repro.C56_znorm",
    "Repro.C56_norm_all",
    "Repro.C56_znorm_all",
    "Repro.C56_norm_zero",
    "Repro.C56_folds"
   ],
   "note": "Accuracy stated on squares, in exact rationals: |r^2 - sum x_i^2| <= (16/2^p + 2N/2^(W(fold-1))) sum x_i^2. Covers dividing by the scale, rounding of the squares, the binned accumulation, the conversion, the square root (correctly rounded, as IEEE requires; for float it is taken in double) and the final multiplication. C56_norm, C56_znorm: one element is at least 2^(p+1) units of the least subnormal. C56_norm_all, C56_znorm_all: every finite vector (subnormal, zero or empty included): r is within half a unit of the least subnormal of a number R that satisfies the bound. C56_norm_zero: norms of zeros are +0."
  },
  {
   "property": "C57",
   "status": "proved",
   "theorems": [
    "Repro.Fmt.C57_guarded_mode",
    "Repro.Fmt.C57_one_check",
    "Repro.Fmt.C57_units",
    "Repro.Fmt.C57_check_double",
    "Repro.Fmt.C57_check_float",
    "Repro.Fmt.C57_complex",
    "Repro.C57_guard_needed_double",
    "Repro.C57_guard_needed_float",
    "Repro.C57_convert",
    "Repro.C57_sum_convert",
    "Repro.C57_guard_needed_convert"
   ],
   "note": "C57_guarded_mode: every operation of every history, each in the mode the check allows, equals the IEEE run bit for bit. C57_guard_needed_*: without the check the mode changes results. C57_convert, C57_sum_convert: the conversions, too."
  },
  {
   "property": "C58",
   "status": "proved",
   "theorems": [
    "Repro.C58_overflow",
    "Repro.C58_sum",
    "Repro.C58_dot",
    "Repro.C58_zsum",
    "Repro.C58_zasum",
    "Repro.C58_gemv",
    "Repro.C58_gemm"
   ],
   "note": "IsSum (PropsAccuracy) is the specification: the finite result is close to the exact one, an infinite one has the sign of an exact result at the threshold. Matrix product entries and complex sums are compared with the exact sum of their rounded terms, the dot product with the exact dot product."
  },
  {
   "property": "C59",
   "status": "proved",
   "theorems": [
    "Repro.C59_programs",
    "Repro.C59_history",
    "Repro.C59_reproducible",
    "Repro.C59_reproducible_complex"
   ],
   "note": "The wrappers are modelled with their memset/memcpy and pointer offsets; C59_programs is the memory-level refinement, C59_history adds the protocol, C59_reproducible/_complex compare two programs. Copying a value onto itself (memcpy with equal arguments) is excluded."
  },
  {
   "property": "C60",
   "status": "proved",
   "theorems": [
    "Repro.C60_sum_is_dot_with_ones",
    "Repro.C60_asum_is_sum_of_abs",
    "Repro.C60_gemv_is_dot",
    "Repro.C60_gemm_is_gemv",
    "Repro.C60_transpose",
    "Repro.C60_zsum_is_sums",
    "Repro.C60_zasum_is_asum",
    "Repro.C60_zdotu_comm",
    "Repro.C60_zdotc_is_dot"
   ],
   "note": "The complex dot product statements carry the block condition of C42 (false of the code without it)."
  },
  {
   "property": "C61",
   "status": "proved",
   "theorems": [
    "Repro.C61_prefix",
    "Repro.C61_routines"
   ],
   "note": ""
  },
  {
   "property": "C62",
   "status": "proved",
   "theorems": [
    "Repro.C62_sum",
    "Repro.C62_asum",
    "Repro.C62_ssq",
    "Repro.C62_dot",
    "Repro.C62_zsum",
    "Repro.C62_zasum",
    "Repro.C62_zssq",
    "Repro.C62_dotu",
    "Repro.C62_dotc",
    "Repro.C62_frame",
    "Repro.C62_expand"
   ],
   "note": "Statement-level model of the generated code (variables, vector expressions, assignments in order) against the lane model that C24-C54 are about."
  },
  {
   "property": "C63",
   "status": "proved",
   "theorems": [
    "Repro.C63_amax",
    "Repro.C63_amaxm",
    "Repro.C63_zamax",
    "Repro.C63_zamaxm",
    "Repro.C63_frame",
    "Repro.C63_is_max"
   ],
   "note": "Statement-level model of the generated maximum kernels against the lane model amaxK/amaxZ used by C24-C54."
  },
  {
   "property": "C64",
   "status": "proved",
   "theorems": [
    "Repro.C64_sum",
    "Repro.C64_asum",
    "Repro.C64_dot",
    "Repro.C64_zsum",
    "Repro.C64_dotu",
    "Repro.C64_dotc",
    "Repro.C64_native",
    "Repro.C64_reproducible",
    "Repro.C64_ssq",
    "Repro.C64_zasum",
    "Repro.C64_zssq",
    "Repro.C64_norm",
    "Repro.C64_znorm",
    "Repro.C64_zasum_native",
    "Repro.C64_znative",
    "Repro.C64_zsum_native"
   ],
   "note": "Whole routines over flat memory with the generated statements inside, refined to the list models used by C04, C20, C21, C36, C41, C42, C56. C64_ssq asks for an initial scale that is zero or has a finite reciprocal (what the routine itself returns); C64_norm and C64_znorm carry the hypotheses of C56. C64_znative: reproBLAS_rzsum_sub, rzdotu_sub, rzdotc_sub end to end."
  },
  {
   "property": "C65",
   "status": "proved",
   "theorems": [
    "Repro.C65_deposit",
    "Repro.C65_maximum",
    "Repro.C65_sum",
    "Repro.C65_asum",
    "Repro.C65_ssq",
    "Repro.C65_dot",
    "Repro.C65_zsum",
    "Repro.C65_zasum",
    "Repro.C65_zssq",
    "Repro.C65_dotu",
    "Repro.C65_dotc",
    "Repro.C65_amax",
    "Repro.C65_amaxm",
    "Repro.C65_zamax",
    "Repro.C65_zamaxm",
    "Repro.C65_masks",
    "Repro.C65_shuffles",
    "Repro.C65_load",
    "Repro.C65_loadPartial",
    "Repro.C65_propagate",
    "Repro.C65_cons"
   ],
   "note": "Simulation between a machine on bit vectors and the lane model of C62/C63. The arithmetic intrinsics are the IEEE operation in every lane; NaN results have one bit pattern. Register combination for complex double in SSE has no constant (one number per register)."
  },
  {
   "property": "C66",
   "status": "proved",
   "theorems": [
    "Repro.C66_gemv",
    "Repro.C66_gemm",
    "Repro.C66_rdgemv",
    "Repro.C66_rdgemm",
    "Repro.C66_reproducible",
    "Repro.C66_zgemv",
    "Repro.C66_zgemm",
    "Repro.C66_rzgemv",
    "Repro.C66_rzgemm"
   ],
   "note": "malloc is an arbitrary address whose block overlaps nothing else (GemvSep, GemmSep; instances shown). The complex wrappers are related to the array-level programs of C45 and C47, whose own defects are recorded there; composed end-to-end statements are C66_rzgemv_partial and C66_rzgemm_partial, listed under C45 and C47."
  },
  {
   "property": "C67",
   "status": "proved",
   "theorems": [
    "Repro.C67_first_use",
    "Repro.C67_in_bounds",
    "Repro.C67_order_matters"
   ],
   "note": "Under sequential consistency. By the C standard the unsynchronised accesses to bins_initialized are a data race; C67_order_matters proves that if the flag may become visible before the table, a thread reads an unset bin."
  },
  {
   "property": "C68",
   "status": "proved",
   "theorems": [
    "Repro.C68_threads",
    "Repro.C68_parallel_sums",
    "Repro.C68_parallel_total"
   ],
   "note": "Each operation is a program of single accesses proved equal, when run alone, to the memory-level model of C50. Sequential consistency as in C67."
  },
  {
   "property": "C69",
   "status": "proved",
   "theorems": [
    "Repro.C69_first_use",
    "Repro.C69_threads",
    "Repro.C69_parallel_total",
    "Repro.C69_unordered_violated"
   ],
   "note": "The compiler is assumed to keep the order of the accesses of the source. C69_unordered_violated: on a machine without store order (ARM, POWER) the flag can overtake the table and a thread reads an unset bin."
  },
  {
   "property": "C70",
   "status": "proved",
   "theorems": [
    "Repro.Fmt.C70_gemv",
    "Repro.Fmt.C70_gemm"
   ],
   "note": "The finite entries are C26 (its hypotheses concern only the summands of the entry). That an infinity can become NaN when finite summands overflow within a block is the defect recorded under C14."
  },
  {
   "property": "C71",
   "status": "proved",
   "theorems": [
    "Repro.C71_sum",
    "Repro.C71_asum",
    "Repro.C71_dot",
    "Repro.C71_zsum",
    "Repro.C71_dotu",
    "Repro.C71_dotc",
    "Repro.C71_ssq",
    "Repro.C71_zasum",
    "Repro.C71_zssq",
    "Repro.C71_native",
    "Repro.C71_reproducible",
    "Repro.C71_scalar",
    "Repro.C71_norm",
    "Repro.C71_znative",
    "Repro.C71_zsum_native",
    "Repro.C71_zasum_native",
    "Repro.C71_znorm",
    "Repro.C71_zreproducible"
   ],
   "note": "Composition of C64 and C65. The scalar C functions between the kernels are lifted to words (load, compute, store bits); NaN results have one bit pattern. The complex natives too (C71_znative, C71_zasum_native, C71_znorm)."
  },
  {
   "property": "C72",
   "status": "proved",
   "theorems": [
    "Repro.C72_hist",
    "Repro.C72_sum",
    "Repro.C72_ssq",
    "Repro.C72_zsum",
    "Repro.C72_dot",
    "Repro.C72_zdot",
    "Repro.C72_convert",
    "Repro.C72_native",
    "Repro.C72_norm",
    "Repro.C72_dot_violated",
    "Repro.C72_scale_violated",
    "Repro.C72_fast_violated",
    "Repro.C72_dot_special"
   ],
   "note": "Dot products: proved under the hypothesis that products do not overflow; C72_dot_violated, C72_scale_violated and C72_fast_violated are executions showing that overflowing products, complex alpha/beta scaling and fusion across statements do depend on contraction. C72_dot_special: contraction inside the kernels is irrelevant for every input, special values included; only the exceptional loops of the dot products matter."
  },
  {
   "property": "C73",
   "status": "proved",
   "theorems": [
    "Repro.C73_alone",
    "Repro.C73_threads",
    "Repro.C73_tso",
    "Repro.C73_parallel_dot",
    "Repro.C73_parallel_sum",
    "Repro.C73_parallel_asum",
    "Repro.C73_shared_violated"
   ],
   "note": "The calls are programs of single memory accesses; C73_alone proves that alone they do what the statements emitted by the generators do. Totals of complex dot products are not stated (C42 is violated there)."
  },
  {
   "property": "C74",
   "status": "proved",
   "theorems": [
    "Repro.C74_real",
    "Repro.C74_complex",
    "Repro.C74_rest",
    "Repro.C74_gemv",
    "Repro.C74_zgemv",
    "Repro.C74_gemm",
    "Repro.C74_zgemm",
    "Repro.C74_rdgemm_total",
    "Repro.C74_gemm_violated",
    "Repro.C74_binned",
    "Repro.C74_zbinned",
    "Repro.C74_addv",
    "Repro.C74_packed",
    "Repro.C74_binned_sharp",
    "Repro.C74_bins",
    "Repro.C74_mpi",
    "Repro.C74_num"
   ],
   "note": "The routines are written again with every int expression checked (none on overflow); the theorems say that the checked routine succeeds with the result of the unchecked one. C74_gemm_violated: the gemm wrappers overflow in their own array (finding 26). C74_binned, C74_zbinned, C74_addv: the operations on single binned values with arbitrary strides, under the condition that the last subscript is representable (sharp: C74_binned_sharp; always met by the packed types: C74_packed). C74_bins: the table of bins; C74_mpi: the operations registered with MPI; C74_num: the sizes."
  },
  {
   "property": "C75",
   "status": "proved",
   "theorems": [
    "Repro.C75_gemv",
    "Repro.C75_gemm"
   ],
   "note": "C58 plus the rounding errors of the products with alpha and beta and of the elements."
  },
  {
   "property": "C76",
   "status": "partial",
   "theorems": [
    "Repro.C76_zdot_partial",
    "Repro.C76_zgemv_partial",
    "Repro.C76_zgemm_partial"
   ],
   "note": "Missing where the program is wrong: blocks of more than half the endurance (finding of C42), column-major conjugate transposed products (C45, C47)."
  },
  {
   "property": "C77",
   "status": "proved",
   "theorems": [
    "Repro.C77_plans_agree",
    "Repro.C77_native_gemm"
   ],
   "note": "Programs of calls for one entry (Plan) evaluate to the reproducible sum of the terms of their factors."
  },
  {
   "property": "C78",
   "status": "proved",
   "theorems": [
    "Repro.C78_every_moment",
    "Repro.C78_restart",
    "Repro.C78_final",
    "Repro.C78_generate",
    "Repro.C78_broken_violated",
    "Repro.C78_interrupted_violated",
    "Repro.C78_search_space",
    "Repro.C78_same_results"
   ],
   "note": "The search is an arbitrary sequence of proposals in range; the file is the dictionary json reads, or unreadable during a write. The last two theorems are finding 27."
  },
  {
   "property": "C79",
   "status": "proved",
   "theorems": [
    "Repro.C79_rdgemv",
    "Repro.C79_rdgemm"
   ],
   "note": "A specification with mathematical matrices, layouts and letters that shares no definition with the model's reading of the flags; the complex versions are C45_matrices_partial and C47_matrices_partial."
  },
  {
   "property": "C80",
   "status": "partial",
   "theorems": [
    "Repro.C80_plans_agree_partial",
    "Repro.C80_native_gemm_partial",
    "Repro.C80_parallel_zgemm_partial"
   ],
   "note": "Missing: calls with the arguments for which the complex routines are wrong (witnesses in C42, C45, C47)."
  },
  {
   "property": "C81",
   "status": "proved",
   "theorems": [
    "Repro.C81_alone",
    "Repro.C81_threads",
    "Repro.C81_tso",
    "Repro.C81_parallel_gemm",
    "Repro.C81_same_as_single",
    "Repro.C81_parallel_gemv"
   ],
   "note": "zbzgemv/rzgemv column-major with conjugate transposition are included only with no more columns than rows, since the code reads beyond its operands otherwise (C45)."
  },
  {
   "property": "C82",
   "status": "proved",
   "theorems": [
    "Repro.C82_parallel_inner",
    "Repro.C82_same_as_single"
   ],
   "note": ""
  },
  {
   "property": "C83",
   "status": "partial",
   "theorems": [
    "Repro.C83_gemv_partial",
    "Repro.C83_gemm_partial"
   ],
   "note": "the branches in which the code is wrong (C45_violated, C47_violated) are excluded; the values of finite parts need blocks of at most half the endurance (C42_violated)"
  },
  {
   "property": "C84",
   "status": "partial",
   "theorems": [
    "Repro.Cb.C84_text",
    "Repro.Cb.C84_dedent",
    "Repro.Cb.C84_nesting",
    "Repro.Cb.C84_again",
    "Repro.Cb.C84_again_violated"
   ],
   "note": "proved for the first call of str(); that str() has no effect is false (C84_again_violated): the second call has an additional empty line. Empty lines are not described by the specification"
  }
 ]
}