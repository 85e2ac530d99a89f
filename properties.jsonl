{"id": "C01", "title": "Summation is bitwise independent of the order of the summands", "statement": "Starting from a binned number set to zero, adding the finite floating point numbers of a list one at a time leaves the binned number in exactly the same bits (primary and carry part) for every permutation of the list, and therefore converting it to a native float gives the same bits.", "quantifier": "every fold >= 2 up to the maximum fold, every list of finite numbers (doubles or floats) no longer than the documented capacity, every permutation", "why_tests_cant": "There are n! orders and 2^64 values per element; a unit test samples a handful of shuffles.", "anchors": ["src/binned/dmdadd.c:binned_dmdadd", "src/binned/dbdadd.c:binned_dbdadd", "src/binned/dmdupdate.c:binned_dmdupdate", "src/binned/dmddeposit.c:binned_dmddeposit", "src/binned/dmrenorm.c:binned_dmrenorm", "src/binned/ddmconv.c:binned_ddmconv"]}
{"id": "C02", "title": "Any reduction tree gives the bits of the sequential sum", "statement": "If a multiset of numbers is split in any way over any tree whose leaves accumulate numbers into fresh binned values and whose inner nodes merge binned values with the binned += binned operation, the resulting binned value has exactly the bits obtained by adding all the numbers sequentially to one binned value.", "quantifier": "every finite tree shape, every distribution of finite numbers over the leaves (leaves may be empty), every fold >= 2", "why_tests_cant": "The number of tree shapes and distributions (process grids, thread schedules) is unbounded.", "anchors": ["src/binned/dmdmadd.c:binned_dmdmadd", "src/binned/dbdbadd.c:binned_dbdbadd", "src/binned/dmdadd.c:binned_dmdadd"]}
{"id": "C03", "title": "Merging binned values is commutative and associative, with zero as unit", "statement": "On binned values produced by the library's own operations, Y += X gives the same bits as X += Y, (X += Y) += Z the same bits as X += (Y += Z), and merging with a freshly zeroed value changes nothing.", "quantifier": "all triples of binned values reachable from zero through additions of finite numbers and merges within capacity, every fold >= 2", "why_tests_cant": "Floating point addition itself is not associative; tests can check particular triples only.", "anchors": ["src/binned/dmdmadd.c:binned_dmdmadd", "src/binned/dmsetzero.c:binned_dmsetzero"]}
{"id": "C04", "title": "The vector sum does not depend on blocking, stride or order", "statement": "Adding a strided vector to a binned value with the blocked vector-sum routine yields exactly the bits obtained by adding its elements one at a time, whatever block size (up to the endurance) the build was tuned to, for every stride, and for every permutation of the elements.", "quantifier": "every vector length N, finite contents, stride, initial reachable binned value, every tuned block size between 1 and the endurance, every fold >= 2", "why_tests_cant": "Block boundaries, renormalisation points and the maximum of each block interact for every length; unit tests use a few lengths with one compiled block size.", "anchors": ["src/binnedBLAS/dmdsum.ccog:binnedBLAS_dmdsum", "src/binnedBLAS/damax.ccog:binnedBLAS_damax", "src/common/blockSize.py:BlockSize"]}
{"id": "C05", "title": "SIMD lanes and unrolling do not change the result", "statement": "The generated deposit kernels keep several partial accumulators, each started from the current primary values, deal the vector elements (padded with zeros) over them, and fold them back as s0 + (s1 - pri) + ...; the primaries they store are bit-identical to the ones obtained by depositing the elements one after the other.", "quantifier": "every number of lanes, every assignment of elements to lanes (every unroll/pipe width and vectorisation), every vector within the endurance", "why_tests_cant": "Each architecture and each tuned width is a different program; a test run exercises the one that was compiled.", "anchors": ["src/binned/deposit.py:Deposit", "src/gen/vectorizations.py:SIMD.consolidate_into", "src/gen/vectorizations.py:Vectorization.iterate_unrolled"]}
{"id": "C06", "title": "The update / deposit / renormalise protocol", "statement": "If a binned value is first updated with a bound at least as large in magnitude as every number deposited afterwards, then depositing up to ENDURANCE numbers and renormalising once gives exactly the bits of adding each number with the full add operation (after the same update).", "quantifier": "every reachable binned value, every bound, every sequence of at most 2048 (double) / 512 (single) finite numbers not exceeding the bound, every fold >= 2", "why_tests_cant": "The endurance is a worst-case bound: only adversarial sequences come near it and they depend on value, sign and bin.", "anchors": ["src/binned/dmdupdate.c:binned_dmdupdate", "src/binned/dmddeposit.c:binned_dmddeposit", "src/binned/dmrenorm.c:binned_dmrenorm", "include/binned.h:binned_DBENDURANCE"]}
{"id": "C07", "title": "Endurance: primaries never leave their binade", "statement": "After any number of deposits up to the endurance since the last renormalisation, every primary still has the exponent of its bin (no accumulator overflows into the next bin, becomes infinite or loses bits), and the endurance is tight: one can exhibit a sequence longer than the endurance after which it fails.", "quantifier": "every normalised binned value and every sequence of at most ENDURANCE finite deposits below the bound; the tightness witness is existential", "why_tests_cant": "Overflow needs thousands of maximal same-sign deposits into a primary already close to its limit.", "anchors": ["src/binned/dmddeposit.c:binned_dmddeposit", "include/binned.h:binned_DBENDURANCE", "include/binned.h:binned_SBENDURANCE"]}
{"id": "C08", "title": "Capacity: carries stay exact", "statement": "While at most CAPACITY = ENDURANCE*(1/eps - 1) numbers have been accumulated (by additions or merges), every carry is an exactly represented integer, so no contribution is ever lost.", "quantifier": "every history of additions and merges totalling at most the capacity (about 9.2e18 doubles / 4.2e9 floats)", "why_tests_cant": "The claim is about 2^63 additions; no test can execute them.", "anchors": ["include/binned.h:binned_DBCAPACITY", "src/binned/dmrenorm.c:binned_dmrenorm", "src/binned/dmdmadd.c:binned_dmdmadd"]}
{"id": "C09", "title": "Renormalisation preserves the value and is idempotent", "statement": "Renormalising a binned value changes neither its index nor the exact number it represents (primary offset plus carry, per bin), leaves every primary in [1.5, 1.75) times its unit in the first place, and renormalising twice is the same as renormalising once.", "quantifier": "every binned value whose primaries lie in the binades of their bins, every fold", "why_tests_cant": "Every one of the 2^52 mantissas and all four quarter-binade cases in every bin must be right.", "anchors": ["src/binned/dmrenorm.c:binned_dmrenorm"]}
{"id": "C10", "title": "The index of a number brackets its magnitude", "statement": "The index i returned for a finite nonzero number x satisfies |x| < 2^(MAX_EXP - i*W), and 2^(MAX_EXP - (i+1)*W) <= |x| unless i is the largest index; larger magnitudes never get a larger index; zero gets the largest index; infinities and NaN get index 0.", "quantifier": "every bit pattern, both precisions, including denormals", "why_tests_cant": "2^64 inputs, with the delicate ones at the bin borders and in the denormal range.", "anchors": ["src/binned/dindex.c:binned_dindex", "src/binned/sindex.c:binned_sindex"]}
{"id": "C11", "title": "Bins and indices are consistent", "statement": "The reference bin table entry i has index i (for i up to the maximum index), is 1.5 times a power of two, all entries from the maximum index on coincide, a value started in bin i reports index i, adding numbers within the bound never changes it, and the quick 'index is zero' test agrees with the index.", "quantifier": "every index and every reachable binned value, both precisions", "why_tests_cant": "The test suite checks the table, not the index of all reachable accumulators.", "anchors": ["src/binned/dmbins.c:binned_dmbins", "src/binned/dmindex.c:binned_dmindex", "src/binned/dmindex0.c:binned_dmindex0"]}
{"id": "C12", "title": "Updating only makes room", "statement": "Updating a binned value with a bound never changes the number contributed by the bins it keeps, lowers the index to the minimum of the old index and the bound's index, is idempotent, two updates commute, and an update interleaved anywhere with additions of numbers gives the same final bits as doing it first.", "quantifier": "every reachable binned value, every finite bound(s), every position in a history of additions", "why_tests_cant": "The shift amount ranges over all index differences including those larger than the fold.", "anchors": ["src/binned/dmdupdate.c:binned_dmdupdate", "src/binned/dbdupdate.c:binned_dbdupdate"]}
{"id": "C13", "title": "Infinities and NaN propagate independently of order", "statement": "Adding a list containing non-finite numbers element by element (and merging such partial sums in any tree) converts to: NaN if the list has a NaN or infinities of both signs, otherwise the infinity it contains, in every order.", "quantifier": "every list of numbers including Inf/NaN, every order, every reduction tree, every fold >= 2", "why_tests_cant": "Where the exceptional value sits relative to bin shifts and merges is unbounded.", "anchors": ["src/binned/dmddeposit.c:binned_dmddeposit", "src/binned/dmdmadd.c:binned_dmdmadd", "src/binned/ddmconv.c:binned_ddmconv"]}
{"id": "C14", "title": "The blocked vector sum propagates infinities reproducibly", "statement": "The vector-sum routine on a vector containing infinities should give the same converted result for every permutation of the vector. (The code accumulates the raw elements of a block into the first primary as soon as the block contains an infinity, so this is false when that native accumulation overflows; it holds when no native partial sum overflows.)", "quantifier": "every vector with infinities, every permutation, every block size", "why_tests_cant": "Needs an infinity together with finite values whose native partial sums overflow in one order only.", "anchors": ["src/binnedBLAS/dmdsum.ccog:binnedBLAS_dmdsum"]}
{"id": "C15", "title": "Negation negates the sum", "statement": "Negating a binned value and then adding or merging anything gives the bits that would result if all previous summands had been added with flipped sign; negating twice restores the value; converting a negated value gives the negated conversion (up to the sign of a zero). (Converting the separately computed sum of the negated numbers may differ from the negated conversion in the last bit, because conversion rounds carries and primaries separately.)", "quantifier": "every reachable binned value, every fold >= 2", "why_tests_cant": "Signed zeros of carries and the asymmetric interval [1.5,1.75) make this value dependent.", "anchors": ["src/binned/dmnegate.c:binned_dmnegate", "src/binned/dbnegate.c:binned_dbnegate"]}
{"id": "C16", "title": "Absolute error of the accumulated value", "statement": "The exact number represented by the binned value after adding x_1..x_N differs from the exact real sum by at most N * 2^(W(1-fold)) * max|x_j|, except for an absolute floor of N times half the unit of the smallest bin when the numbers are so small that the last accumulators fall below the smallest bin.", "quantifier": "every list of finite numbers within capacity, every order, every fold >= 2, both precisions", "why_tests_cant": "An error bound over all inputs cannot be established by sampling; tests use a few distributions.", "anchors": ["src/binned/dmddeposit.c:binned_dmddeposit", "src/binned/dbbound.c:binned_dbbound", "README.md:FAQ 1"]}
{"id": "C17", "title": "The advertised error bound function is a bound", "statement": "The value returned by the bound function for (fold, N, max|x|, S) bounds the difference between the converted binned sum S and the exact sum of the N inputs. False of the code in three regimes, which are proved as violations: inputs so tiny that bits are lost below the smallest bin; double folds of 28 and more, where the factor of the bound underflows to zero; and float sums of more than 2^25 + 1 numbers, where the bound is rounded down to a float (witness with 2^25 + 2 numbers).", "quantifier": "every list of finite numbers, every fold >= 2", "why_tests_cant": "Violations only occur for sums of subnormal numbers below 2^-1055.", "anchors": ["src/binned/dbbound.c:binned_dbbound", "src/binned/sbbound.c:binned_sbbound", "src/binned/ddmconv.c:binned_ddmconv"]}
{"id": "C18", "title": "A single number survives the round trip", "statement": "Converting a finite number to a binned value with fold >= 3 and back returns exactly that number, for every number that is a multiple of the unit of the smallest bin (in particular every number of magnitude at least about 2^-1003 in double); in general (any fold >= 2) the result is a multiple of the unit of the last bin used, and within half that unit of the number.", "quantifier": "every finite bit pattern, every fold >= 3", "why_tests_cant": "2^64 inputs, with special code paths for the largest bins (scaling) and denormals.", "anchors": ["src/binned/dmdconv.c:binned_dmdconv", "src/binned/ddmconv.c:binned_ddmconv"]}
{"id": "C19", "title": "Empty sums, zeros and exact cancellation convert to zero", "statement": "A freshly zeroed binned value, a sum of zeros only, and a sum in which every number is matched by its negation, all convert to zero, in every order.", "quantifier": "every list l of finite numbers and every permutation of l ++ map negate l, every fold >= 2", "why_tests_cant": "Native summation fails this for most permutations; a test can only sample.", "anchors": ["src/binned/ddmconv.c:binned_ddmconv", "src/binned/dmsetzero.c:binned_dmsetzero"]}
{"id": "C20", "title": "Absolute-value sum", "statement": "The reproducible sum of absolute values equals, bit for bit, the reproducible sum of the vector of absolute values; it is unchanged by flipping any signs and by permuting the vector; the represented value is never negative.", "quantifier": "every finite vector, sign pattern, permutation, stride, block size, fold >= 2", "why_tests_cant": "2^n sign patterns times n! orders.", "anchors": ["src/binnedBLAS/dmdasum.ccog:binnedBLAS_dmdasum", "src/binnedBLAS/depositASum.py:DepositASum"]}
{"id": "C21", "title": "Dot product", "statement": "The reproducible dot product equals, bit for bit, the reproducible sum of the individually rounded products x_i*y_i, is unchanged under simultaneous permutation of both vectors and under swapping the two vectors, and does not depend on block size or strides.", "quantifier": "every pair of vectors with finite rounded products, permutation, strides, block size, fold >= 2", "why_tests_cant": "As for the sum, plus the interplay of the product maximum with blocking.", "anchors": ["src/binnedBLAS/dmddot.ccog:binnedBLAS_dmddot", "src/binnedBLAS/damaxm.ccog:binnedBLAS_damaxm", "src/binnedBLAS/depositDot.py:DepositDot"]}
{"id": "C22", "title": "Complex binned values are two independent real ones", "statement": "Every complex binned operation (set, update, add, deposit, renormalise, negate, merge, complex += real, real -> complex set) acts on the interleaved real and imaginary parts exactly as the corresponding real operation acts on each part; no operation mixes the two.", "quantifier": "every complex binned value, every complex operand, every fold >= 2", "why_tests_cant": "The complex deposit has four special cases (either part in the top bin) whose equivalence to the real routine is a statement over all values.", "anchors": ["src/binned/zmzdeposit.c:binned_zmzdeposit", "src/binned/zmzmadd.c:binned_zmzmadd", "src/binned/zmzupdate.c:binned_zmzupdate", "src/binned/zmrenorm.c:binned_zmrenorm", "src/binned/zmnegate.c:binned_zmnegate", "src/binned/zmdmset.c:binned_zmdmset", "src/binned/zmdupdate.c:binned_zmdupdate"]}
{"id": "C23", "title": "Complex conversion agrees with real conversion", "statement": "Converting a complex binned value returns the pair of real conversions of its two parts, for every stride of the carry vector. (False of the code for carry strides other than 1: the stride passed on is inc+1 instead of 2*inc.)", "quantifier": "every complex binned value and every stride", "why_tests_cant": "All in-tree callers use stride 1, so tests cannot see it.", "anchors": ["src/binned/zzmconv_sub.c:binned_zzmconv_sub", "src/binned/ccmconv_sub.c:binned_ccmconv_sub"]}
{"id": "C24", "title": "Matrix-vector product is an exact reproducible dot product per row", "statement": "Each entry of the binned matrix-vector product equals, bit for bit, the reproducible sum of y_i and the products a_ij*(x_j*alpha) over j, independent of storage order (row/column major), transposition flag, tile sizes and leading dimension; nothing outside the addressed entries of Y is written; with an empty dimension or alpha = 0 nothing is written.", "quantifier": "every matrix size, layout, transposition, tile sizes, increments, alpha, finite data, fold >= 2", "why_tests_cant": "Tiling and transposition code paths multiply; a test covers sizes near a few tile boundaries.", "anchors": ["src/binnedBLAS/dbdgemv.ccog:binnedBLAS_dbdgemv", "src/reproBLAS/rdgemv.c:reproBLAS_rdgemv"]}
{"id": "C25", "title": "Matrix-matrix product is an exact reproducible dot product per entry", "statement": "Each entry of the binned matrix product equals, bit for bit, the reproducible sum of c_ij and the products over the inner index, and is the same for all storage orders and transposition flags describing the same matrices.", "quantifier": "every M, N, K, layout, both transposition flags, leading dimensions, alpha, finite data, fold >= 2", "why_tests_cant": "Eight layout branches times all sizes.", "anchors": ["src/binnedBLAS/dbdgemm.ccog:binnedBLAS_dbdgemm", "src/reproBLAS/rdgemm.c:reproBLAS_rdgemm"]}
{"id": "C26", "title": "alpha and beta conventions of the native-type matrix products", "statement": "The native matrix products return the conversion of the binned sum of beta*y and the products; beta = 0 ignores the previous contents of y (even NaN), beta = 1 uses y unchanged, alpha = 0 or an empty inner dimension reduces to scaling by beta.", "quantifier": "every alpha, beta, size, contents", "why_tests_cant": "Special-casing of beta and alpha is by value, with NaN contents as the dangerous case.", "anchors": ["src/reproBLAS/rdgemv.c:reproBLAS_rdgemv", "src/reproBLAS/rdgemm.c:reproBLAS_rdgemm"]}
{"id": "C27", "title": "MPI reductions are independent of the reduction tree", "statement": "Reducing packed binned values with the MPI sum operation gives, for every way the MPI library may order and parenthesise the reduction over the ranks, the bits of the sequential sum of all the data of all ranks; each of the packed values in a buffer is reduced independently.", "quantifier": "every number of ranks, every reduction tree/order, every buffer length, every fold supported by the operation table", "why_tests_cant": "MPI implementations choose the tree at run time.", "anchors": ["src/binnedMPI/DBDBADD.ccog", "src/binned/dbdbaddv.c:binned_dbdbaddv", "src/binnedMPI/DOUBLE_BINNED.c:binnedMPI_DOUBLE_BINNED"]}
{"id": "C28", "title": "MPI reductions of scaled sums of squares keep their scale", "statement": "Reducing (scale, binned sum of squares) pairs with the MPI operation gives the pair that the binned add-of-squares gives. (False of the code: the vector routine discards the returned scale, so the result is paired with the scale of the accumulator.)", "quantifier": "every pair of ranks' scaled sums with different scales", "why_tests_cant": "The in-tree MPI code is only run with equal scales, if at all.", "anchors": ["src/binned/dbdbaddsq.c:binned_dbdbaddsq", "src/binned/dmdmaddsq.c:binned_dmdmaddsq", "src/binnedMPI/DBDBADDSQ.ccog"]}
{"id": "C29", "title": "Sums of squares and 2-norm", "statement": "The scaled sum of squares and the norm derived from it do not depend on the order of the vector, on blocking or on the split into partial sums, and the scale is the power-of-two scale of the largest magnitude seen.", "quantifier": "every finite vector, permutation, block size, stride, split, tuning; fold 2..22 for double and 2..6 for float (default 3; false for folds of 25 / 9 and more, where bins are lost in rescaling)", "why_tests_cant": "Rescaling happens whenever the running maximum crosses a scale boundary, at data dependent places.", "anchors": ["src/binnedBLAS/dmdssq.ccog:binnedBLAS_dmdssq", "src/binned/dmdrescale.c:binned_dmdrescale", "src/binned/dscale.c:binned_dscale", "src/reproBLAS/rdnrm2.c:reproBLAS_rdnrm2"]}
{"id": "C30", "title": "The scale of a number", "statement": "The scale returned for any bit pattern x is a power of two 2^(W z), z an integer; it and its reciprocal are finite, and the reciprocal is computed without rounding. For finite x, |x| < 2^W * scale, and scale < 2^W * |x| unless x is smaller than about 2^(W-bias) (all such numbers share the least scale). The scale ignores the sign and is monotone in |x|. (The documented lower bound Y * 2^(-p-W-1) < X fails for the least subnormals.)", "quantifier": "every bit pattern, both precisions", "why_tests_cant": "2^64 inputs; C remainder of a negative operand is involved.", "anchors": ["src/binned/dscale.c:binned_dscale", "src/binned/sscale.c:binned_sscale"]}
{"id": "C31", "title": "Strided access touches exactly the addressed elements", "statement": "Operations on a binned value stored with strides incpri/inccar read and write only the elements pri[i*incpri], car[i*inccar] for i < fold, and the result there is the one obtained with unit strides.", "quantifier": "every stride >= 1, every memory contents, every fold >= 2", "why_tests_cant": "Strided interfaces are internal building blocks of the interleaved complex layout; tests use strides 1 and 2.", "anchors": ["src/binned/dmdupdate.c:binned_dmdupdate", "src/binned/dmddeposit.c:binned_dmddeposit", "src/binned/dmrenorm.c:binned_dmrenorm", "src/binned/dmdmadd.c:binned_dmdmadd"]}
{"id": "C32", "title": "A binned value occupies exactly its declared size", "statement": "With fold >= 2 no operation on a packed binned value reads or writes outside the number of words reported by the size query functions, so arrays of packed values never interfere. (For fold = 1 this is false: depositing into the top bin writes one element past the primary vector.)", "quantifier": "every fold, every reachable value, every operand", "why_tests_cant": "Out-of-bounds accesses appear only for fold 1 with huge operands.", "anchors": ["src/binned/dbnum.c:binned_dbnum", "src/binned/dbsize.c:binned_dbsize", "src/binned/dmddeposit.c:binned_dmddeposit", "src/binned/ddmconv.c:binned_ddmconv"]}
{"id": "C33", "title": "Maximum magnitude", "statement": "The maximum-absolute-value routine returns the largest |x_i| (0 for an empty vector) of a NaN-free vector, independent of order, stride and lane assignment; with NaNs present the result may depend on the order.", "quantifier": "every NaN-free vector, permutation, lane split", "why_tests_cant": "Correct bins for whole blocks depend on it for every vector.", "anchors": ["src/binnedBLAS/damax.ccog:binnedBLAS_damax", "src/binnedBLAS/amax.py:AMax"]}
{"id": "C34", "title": "Unit in the first place", "statement": "The unit-in-the-first-place function returns the power of two 2^e with 2^e <= |x| < 2^(e+1) for every normal x. (False of the double version for |x| >= 2^128 or tiny x: the inline helper returns float.)", "quantifier": "every normal bit pattern", "why_tests_cant": "Only values outside the float range are affected.", "anchors": ["src/common/common.h:UFP", "src/binned/ufp.c:binned_ufp", "src/binned/ufpf.c:binned_ufpf"]}
{"id": "C35", "title": "Elementwise addition of arrays of binned values", "statement": "Adding one strided array of packed binned values to another adds corresponding values and changes nothing else.", "quantifier": "every length, stride, fold, contents", "why_tests_cant": "Address arithmetic over all lengths and strides.", "anchors": ["src/binned/dbdbaddv.c:binned_dbdbaddv", "src/binned/zbzbaddv.c:binned_zbzbaddv"]}
{"id": "C36", "title": "Native-type wrappers are the conversion of the binned operation", "statement": "The reproBLAS sum, asum and dot routines return exactly the conversion of the binned result for the given fold, and the short names are the same routine at the default fold; hence the returned native float is independent of order.", "quantifier": "every finite vector, permutation, stride, fold", "why_tests_cant": "Same as for the binned routines.", "anchors": ["src/reproBLAS/rdsum.c:reproBLAS_rdsum", "src/reproBLAS/dsum.c:reproBLAS_dsum", "src/reproBLAS/rdasum.c", "src/reproBLAS/rddot.c"]}
{"id": "C37", "title": "Generated loops visit every element exactly once", "statement": "The unrolled loop skeleton emitted by the code generator (a main loop with the maximal unroll followed by halving remainders and a partial vector load) processes each index 0..n-1 exactly once and in order, and advances the data pointers accordingly, for every maximal unroll width the tuner may choose.", "quantifier": "every vector length n, every vectorisation width, every unroll width", "why_tests_cant": "The generator is parametric; only a few compiled instances are tested.", "anchors": ["src/gen/vectorizations.py:Vectorization.iterate_unrolled", "src/gen/dataTypes.py:DataType.data_increment"]}
{"id": "C38", "title": "Tuning parameters stay within their declared ranges", "statement": "Whatever is written in the arguments file (numbers, texts, booleans, out of range or odd values), every argument that the generator accepts is a legal value of its parameter: a boolean, an integer in range and multiple of the step, or a power of two in range; legal values are kept, other block sizes are raised to the next power of two and clamped. Hence every build the generator accepts, for every vectorization and fold, has a block size not above the endurance and register widths that divide the loop widths, all its matrix tiles are consistent, and any two builds of the vector sum give the same bits.", "quantifier": "every arguments file, every parameter kind, every collected set of targets, every vectorization and fold, every cache size", "why_tests_cant": "Tuning data are external input.", "anchors": ["src/gen/generate.py:IntegerParameter", "src/gen/generate.py:PowerOfTwoParameter", "src/gen/generate.py:BooleanParameter", "src/common/blockSize.py:BlockSize"]}
{"id": "C39", "title": "Parameter files describe exactly the collected targets", "statement": "Collecting tuning parameters over any sequence of source files, where the parameters file is written as JSON and read back for every file, fails exactly when two parameters have the same name; otherwise the final file read back describes exactly the targets: files to arguments, arguments to files, metrics to arguments and back, and every parameter with its name, tags, range and default. The default arguments file made from it is accepted for every target and gives every argument its declared default.", "quantifier": "every sequence of targets with constructed parameters, every space collected from them", "why_tests_cant": "Parameter spaces are assembled dynamically from the code templates.", "anchors": ["src/gen/generate.py:ParameterSpace", "src/gen/generate.py:Parameter.decode", "src/gen/generate.py:generate", "src/gen/default_args.py"]}
{"id": "C40", "title": "Symbolic expression folding is sound", "statement": "The generator's expression combiner produces a C expression whose value equals the value of applying the operator to the operands from left to right, for every mixture of literals and symbolic operands, and which keeps this value inside any other expression; in particular the address and pointer increment expressions are the addresses of the elements.", "quantifier": "every operator supported, every operand list, every valuation of the symbols", "why_tests_cant": "The generated address arithmetic depends on it.", "anchors": ["src/gen/utils.py:mix", "src/gen/dataTypes.py:DataType.index"]}
{"id": "C41", "title": "Exactness when no bits are dropped", "statement": "If every summand is a multiple of the unit of the last accumulator's bin at the final index, the represented value is exactly the real sum, in any order.", "quantifier": "every such list, every order, every fold >= 2", "why_tests_cant": "Exactness is a statement over all inputs.", "anchors": ["src/binned/dmddeposit.c:binned_dmddeposit", "src/binned/dmdupdate.c:binned_dmdupdate"]}
{"id": "C43", "title": "MPI reductions of complex values", "statement": "Reducing packed complex binned values with the MPI complex sum operations gives, in the real and in the imaginary part of every element, the bits of the sequential sum over all ranks, for every course of the reduction. (False of the code for double precision: the generated functions of the double complex operation call the routine for real values.)", "quantifier": "every number of ranks, every reduction tree/order/segmentation, every buffer length, every fold, both precisions", "why_tests_cant": "MPI implementations choose the tree at run time, and the repository has no test of the complex MPI operations.", "anchors": ["src/binnedMPI/ZBZBADD.ccog", "src/binnedMPI/CBCBADD.ccog", "src/binnedMPI/DOUBLE_COMPLEX_BINNED.c"]}
{"id": "C44", "title": "Handles of MPI operations", "statement": "Over every sequence of requests for the MPI operation of a supported fold, each returned handle stands for the reduction function of that fold, equal folds get the same handle and each operation is created once. (For the largest fold of the library, one more than the largest index, no operation exists: what is returned depends on an uninitialised variable.)", "quantifier": "every sequence of requests, every fold", "why_tests_cant": "Depends on the whole history of earlier requests.", "anchors": ["src/binnedMPI/DBDBADD.ccog:binnedMPI_DBDBADD", "src/binnedMPI/SBSBADD.ccog"]}
{"id": "C46", "title": "Matrix products stay inside their work buffers", "statement": "The packing and scaling loops of the matrix products write only inside the work buffers they allocate, for every matrix size and every block size the tuner can choose (powers of two); results do not depend on what the buffers contained before.", "quantifier": "every matrix size, position of the tile, leading dimension, power-of-two block sizes", "why_tests_cant": "Out-of-bounds writes depend on matrix sizes modulo block sizes, and block sizes are chosen by the tuner at build time.", "anchors": ["src/binnedBLAS/dbdgemv.ccog:binnedBLAS_dbdgemv", "src/binnedBLAS/dbdgemm.ccog:binnedBLAS_dbdgemm", "src/common/blockSize.py:BlockSize"]}
{"id": "C42", "title": "Complex dot products are the reproducible sum of their products", "statement": "The complex dot product (conjugated or not) of two strided complex vectors, added to a complex binned value, leaves in each part the bits of adding the two real products of each element to that part one at a time; hence the native result does not depend on the order of the elements, the strides, the block size, the register width or the unrolling.", "quantifier": "all vectors with finite products, all lengths and strides, all folds >= 2, all accumulators left by legal programs, all generator tunings", "why_tests_cant": "the block size, vector width and unrolling of the generated kernels and the number of deposits between renormalisations interact; the failure needs a full block of large same-sign slices", "anchors": ["src/binnedBLAS/zmzdotu.ccog", "src/binnedBLAS/zmzdotc.ccog", "src/binnedBLAS/cmcdotu.ccog", "src/binnedBLAS/cmcdotc.ccog", "src/binnedBLAS/depositDotU.py", "src/binnedBLAS/depositDotC.py", "src/reproBLAS/rzdotu_sub.c"]}
{"id": "C48", "title": "Complex sums and absolute sums are part-by-part reproducible sums", "statement": "The sum of a strided complex vector leaves in each part of the accumulator the bits of adding the corresponding parts of the elements one at a time; infinities and NaNs in one part do not change the other part; the absolute sum leaves the bits of adding |Re x|, |Im x| of every element one at a time. The native results do not depend on order, stride or tuning.", "quantifier": "all vectors (finite in the part considered), all lengths and strides, all folds >= 2, all accumulators left by legal programs, all generator tunings", "why_tests_cant": "the two parts share registers, exceptional branches and the choice of compressed deposits for bin 0; every combination of the states of the two parts, block boundary and tuning matters", "anchors": ["src/binnedBLAS/zmzsum.ccog", "src/binnedBLAS/cmcsum.ccog", "src/binnedBLAS/dmzasum.ccog", "src/binnedBLAS/smcasum.ccog", "src/binned/deposit.py", "src/reproBLAS/rzsum_sub.c", "src/reproBLAS/rdzasum.c"]}
{"id": "C45", "title": "Complex matrix-vector product is the reproducible sum per entry", "statement": "For the complex matrix-vector products (zbzgemv/cbcgemv and rzgemv/rcgemv), each part of entry r of the result is the reproducible sum of its previous value (for the native routines: of the part of beta*y_r, nothing if beta is zero) and of the products of row r of op(A) with alpha*x, where op is identity, transposition or conjugate transposition. The bits depend neither on the storage order, leading dimension, stride, block sizes, tuning nor buffer contents, only elements of the matrix and vector are read, and nothing but the entries of y is written.", "quantifier": "all matrices, vectors, alpha, beta, dimensions, storage orders, transposition flags, strides, block sizes, tunings (finite products)", "why_tests_cant": "Infinitely many shapes, layouts and values; a wrong length in one of the six storage/transposition cases shows up only for non-square matrices.", "anchors": ["src/binnedBLAS/zbzgemv.ccog:binnedBLAS_zbzgemv", "src/binnedBLAS/cbcgemv.ccog:binnedBLAS_cbcgemv", "src/reproBLAS/rzgemv.c:reproBLAS_rzgemv", "src/reproBLAS/rcgemv.c:reproBLAS_rcgemv"]}
{"id": "C47", "title": "Complex matrix-matrix product is the reproducible sum per entry", "statement": "For the complex matrix-matrix products (zbzgemm/cbcgemm and rzgemm/rcgemm), each part of entry (r,c) of the result is the reproducible sum of its previous value (for the native routines: of the part of beta*c_rc, nothing if beta is zero) and of the products of row r of alpha*op(A) with column c of op(B), for all nine combinations of transposition flags and both storage orders; the bits do not depend on storage order, leading dimensions, block sizes, tuning or buffer contents, and nothing but the entries of C is written.", "quantifier": "all matrices, alpha, beta, dimensions, storage orders, transposition flags, block sizes, tunings (finite products)", "why_tests_cant": "36 branches times all shapes and values; an error in one scaling formula is invisible for real alpha equal to one.", "anchors": ["src/binnedBLAS/zbzgemm.ccog:binnedBLAS_zbzgemm", "src/binnedBLAS/cbcgemm.ccog:binnedBLAS_cbcgemm", "src/reproBLAS/rzgemm.c:reproBLAS_rzgemm", "src/reproBLAS/rcgemm.c:reproBLAS_rcgemm"]}
{"id": "C49", "title": "Conversion of a binned number to a native number is accurate", "statement": "Whatever sequence of deposits, merges, negations and renormalisations produced a binned number, converting it to double (float) returns its exact value up to a relative error of 2^-50 (2^-21) of the result, however much the bins cancel, and returns the exact value whenever that is smaller than 2^(p-1) units of its lowest bin.", "quantifier": "every call history of finite numbers within the documented capacity, every fold from 2 on whose bins stay above the underflow threshold, both precisions, finite results", "why_tests_cant": "The error after cancellation between bins depends on the order in which carries and primaries of all the bins are added; only a proof covers every combination of bins.", "anchors": ["src/binned/ddmconv.c:binned_ddmconv", "src/binned/ssmconv.c:binned_ssmconv"]}
{"id": "C50", "title": "Infinities and NaN in norms", "statement": "The 2-norm of a vector with a NaN anywhere is NaN; of a vector with an infinity of either sign and no NaN it is +Inf; the scale returned with the sum of squares is then 1. Position, order, blocking and what precedes do not matter.", "quantifier": "every vector with at least one non-finite element, every stride, tuning and fold 2..22 (double) / 2..6 (float)", "why_tests_cant": "The code switches to native accumulation in the middle of a block loop depending on where the non-finite element is and on what has been accumulated; NaN is not seen by the maximum and takes another path.", "anchors": ["src/binnedBLAS/dmdssq.ccog:binnedBLAS_dmdssq", "src/reproBLAS/rdnrm2.c:reproBLAS_rdnrm2", "src/reproBLAS/rsnrm2.c:reproBLAS_rsnrm2"]}
{"id": "C51", "title": "Norms of complex vectors are reproducible", "statement": "binnedBLAS_dmzssq / smcssq (and the packed dbzssq / sbcssq) add to a scaled sum of squares (scale, Y) the squares of the real and imaginary parts of a complex vector; the returned scale and all bits of Y depend only on the multiset of the absolute values of the parts (and on what Y held before), not on order, stride, splitting into calls, block size or vectorisation; reproBLAS_rdznrm2 / rscnrm2 of a complex vector has the bits of rdnrm2 / rsnrm2 of the real vector of its parts.", "quantifier": "every fold from 2 to 22 (double) or 6 (float), every length up to half the capacity, every finite complex vector, every stride, order, split and admissible tuning, every earlier content of the accumulator that is a scaled sum of squares", "why_tests_cant": "the complex rescaling looks at another array element than the one it divided and the two parts share one scale; only a proof over all magnitudes shows that this never matters for these folds", "anchors": ["src/binnedBLAS/dmzssq.ccog:binnedBLAS_dmzssq", "src/binnedBLAS/smcssq.ccog:binnedBLAS_smcssq", "src/binned/zmdrescale.c:binned_zmdrescale", "src/binned/cmsrescale.c:binned_cmsrescale", "src/binned/dmdmaddsq.c:binned_dmdmaddsq", "src/reproBLAS/rdznrm2.c:reproBLAS_rdznrm2", "src/binnedBLAS/depositSSq.py:DepositSSq"]}
{"id": "C52", "title": "Infinities and NaN in absolute sums and norms of complex vectors", "statement": "reproBLAS_rdzasum / rscasum and rdznrm2 / rscnrm2 of a complex vector with a NaN in any real or imaginary part are NaN; with an infinite part of either sign and no NaN they are +Inf (the scale returned with the sum of squares is then 1). The absolute sum may be added to any finite accumulator. Position, order, blocking and vectorisation do not matter.", "quantifier": "every complex vector with at least one non-finite part, every stride and admissible tuning; fold at least 2 (absolute sum), 2..22 double / 2..6 float (norm); every history of the accumulator (absolute sum)", "why_tests_cant": "The routines keep two states, a complex temporary and the real result, and switch between them in the middle of the block loop depending on where the non-finite part is; NaN is not seen by the maximum and takes another path.", "anchors": ["src/binnedBLAS/dmzasum.ccog:binnedBLAS_dmzasum", "src/binnedBLAS/dmzssq.ccog:binnedBLAS_dmzssq", "src/reproBLAS/rdzasum.c:reproBLAS_rdzasum", "src/reproBLAS/rdznrm2.c:reproBLAS_rdznrm2"]}
{"id": "C53", "title": "Infinities and NaN when a scaled sum of squares is continued", "statement": "Continuing a scaled sum of squares (scale, Y) of finite numbers with binnedBLAS_dmdssq / dmzssq on a vector that holds a NaN gives NaN, on one with infinities and no NaN gives +Inf, and the returned scale is 1, whatever was summed before and in whatever order.", "quantifier": "every finite list summed before, every real or complex vector with a non-finite element, every order and admissible tuning, fold 2..22 double / 2..6 float", "why_tests_cant": "Only particular combinations of the earlier scale, the scale of this call and the position of the infinity relative to the blocks go wrong.", "anchors": ["src/binnedBLAS/dmdssq.ccog:binnedBLAS_dmdssq", "src/binnedBLAS/dmzssq.ccog:binnedBLAS_dmzssq", "src/binned/dmdmaddsq.c:binned_dmdmaddsq", "src/binned/dmdrescale.c:binned_dmdrescale"]}
{"id": "C54", "title": "Infinities and NaN in complex sums stay in their part", "statement": "rzsum/rcsum and zbzsum etc.: each part of the converted sum of a complex vector is NaN if that part of the vector contains a NaN or infinities of both signs; if it contains an infinity the part is that infinity or NaN, never finite. Special values in the other part (even a NaN or infinite accumulator) do not disturb it. If the finite numbers of the part are below 2^(MAX_EXP-W), one kind of infinity gives exactly that infinity in every order.", "quantifier": "all complex vectors with special values at any positions, strides, lengths up to capacity, folds, accumulators (any value in the other part), blockings and vector widths", "why_tests_cant": "the exceptional code paths depend on which block, which part and which earlier state; combinations are unbounded", "anchors": ["src/binnedBLAS/zmzsum.ccog:binnedBLAS_zmzsum", "src/binnedBLAS/cmcsum.ccog:binnedBLAS_cmcsum", "src/reproBLAS/rzsum_sub.c:reproBLAS_rzsum_sub"]}
{"id": "C55", "title": "Infinities and NaN in complex dot products stay in their part", "statement": "rzdotu/rzdotc (and c versions): each part of the result is NaN if a product contributing to it is NaN (for every block size and accumulator) or products of both infinite signs contribute; an infinite product gives that infinity or NaN, never a finite number; special products of the other part do not disturb it.", "quantifier": "all complex vectors, strides, lengths up to capacity, folds, accumulators and tunings", "why_tests_cant": "depends on the position of special products relative to blocks and on the state of both parts; unbounded", "anchors": ["src/binnedBLAS/zmzdotu.ccog:binnedBLAS_zmzdotu", "src/binnedBLAS/zmzdotc.ccog:binnedBLAS_zmzdotc"]}
{"id": "C56", "title": "2-norms are accurate and free of spurious overflow and underflow", "statement": "rdnrm2, rdznrm2 (and the s/sc versions): for finite elements the returned norm r is either finite, non-negative with r^2 equal to the exact sum of the squares up to the relative error 2^(4-p) + 2 N 2^(-W(fold-1)); or infinite, and this only if the exact norm reaches the overflow threshold up to that error. Squares of elements may overflow or underflow without harm. If all elements are tiny (below four times the smallest normal number) the same holds of a number within half a unit of the least subnormal number of r; the norm of zeros and of the empty vector is +0.", "quantifier": "all vectors of finite elements up to capacity, strides, tunings, folds 2..22 (double) / 2..6 (float); 2..21 / 2..5 for tiny elements", "why_tests_cant": "the error bound and absence of spurious overflow must hold for every combination of magnitudes over the whole exponent range and every length", "anchors": ["src/reproBLAS/rdnrm2.c:reproBLAS_rdnrm2", "src/reproBLAS/rdznrm2.c:reproBLAS_rdznrm2", "src/binnedBLAS/dmdssq.ccog:binnedBLAS_dmdssq", "src/binned/dscale.c:binned_dscale", "src/binned/ddmconv.c:binned_ddmconv"]}
{"id": "C57", "title": "The denormal check makes flush-to-zero mode safe", "statement": "If binned_dmdenorm (smdenorm; zmdenorm/cmdenorm for both parts) returns 0 for an accumulator, then binned_dmdadd, dmdupdate, dmddeposit, dmrenorm, dmnegate and dmdmadd on it, and the conversions binned_ddmconv and binned_ssmconv of it, give exactly the same bits with the processor in 'denormals are zero / flush to zero' mode as in IEEE mode, for every finite summand including subnormal ones; the check stays 0 under further additions. So a program that checks before every operation and runs it in the fast mode when the check allows is indistinguishable from one that never uses the mode. The check returns 0 exactly for accumulators whose last bin number is at most 48 (double) / 16 (float), one less in the overflow bin, and never for an empty accumulator.", "quantifier": "all histories of set/add/update/batch/merge/negate/renorm within capacity, all folds >= 2, all finite summands", "why_tests_cant": "flushing must be invisible for every summand, every position of the bins and every intermediate remainder of the slicing loop", "anchors": ["src/binned/dmdenorm.c:binned_dmdenorm", "src/binned/smdenorm.c:binned_smdenorm", "src/binned/zmdenorm.c:binned_zmdenorm", "src/binned/cmdenorm.c:binned_cmdenorm", "src/binned/deposit.py:set_daz_ftz", "src/binned/dmddeposit.c:binned_dmddeposit", "src/binned/ddmconv.c:binned_ddmconv", "src/binned/ssmconv.c:binned_ssmconv"]}
{"id": "C58", "title": "Native results are accurate and overflow only when the exact result does", "statement": "The native number returned by a reproducible sum, absolute sum or dot product (real or complex sums), or by an entry of a native matrix product, differs from the exact sum of its terms by at most a relative 2^(3-p) plus N*max|term|*2^(-W(fold-1)) (for the dot product plus the rounding of the products, and then against the exact dot product). It is infinite only if the exact result reaches the overflow threshold 2^MAX_EXP up to that error, with the sign of that result, and it is never NaN for finite terms. Partial sums that leave the range of the format on the way do no harm, in any order. The same holds for the conversion of an accumulator filled by any history of operations.", "quantifier": "all vectors and matrices of finite elements with finite terms, up to the capacity, in range (largest term at least fold bins above the smallest bin, or all terms multiples of the smallest unit), all strides, tunings, block sizes, folds >= 2, both precisions; for the conversion all legal settled histories", "why_tests_cant": "the error bound and the absence of spurious overflow must hold for every vector; tests sample a few random vectors and never the overflow boundary with cancelling intermediate sums", "anchors": ["src/binned/ddmconv.c:binned_ddmconv", "src/binned/ssmconv.c:binned_ssmconv", "src/reproBLAS/rdsum.c:reproBLAS_rdsum", "src/reproBLAS/rdasum.c:reproBLAS_rdasum", "src/reproBLAS/rddot.c:reproBLAS_rddot", "src/reproBLAS/rzsum_sub.c:reproBLAS_rzsum_sub", "src/reproBLAS/rdgemv.c:reproBLAS_rdgemv", "src/reproBLAS/rdgemm.c:reproBLAS_rdgemm"]}
{"id": "C59", "title": "Programs of public calls on packed values", "statement": "A program that allocates packed real and complex binned values (each the number of words its size function declares, anywhere, not overlapping) and makes any sequence of public calls on them (set to zero, convert from a number, update, deposit, renormalise, add, negate, merge one into another or into itself, copy, copy a real into a complex value) behaves as if each value were a separate mathematical object: a call changes only its target value, no word outside the values changes, and whatever was in memory before does not matter once a value is initialised. A value on which the program kept to the update/deposit/renormalise protocol holds exactly the result of its history, so two such programs that add the same numbers (any order, batching, intermediate values, merges, addresses) and whose bounds fall into the same bin leave bit-identical words and convert to the same number.", "quantifier": "all sequences of public calls, all layouts without overlap, all initial memories, all folds >= 2, real and complex, both precisions; for reproducibility all pairs of such programs with the same numbers within the capacity", "why_tests_cant": "tests exercise one value with a fixed short call sequence at one address; aliasing, stale memory and interleavings of many values are unbounded", "anchors": ["include/binned.h", "src/binned/dbsetzero.c:binned_dbsetzero", "src/binned/dbdbset.c:binned_dbdbset", "src/binned/dbdbadd.c:binned_dbdbadd", "src/binned/dbdadd.c:binned_dbdadd", "src/binned/dbdupdate.c:binned_dbdupdate", "src/binned/dbddeposit.c:binned_dbddeposit", "src/binned/dbrenorm.c:binned_dbrenorm", "src/binned/dbnegate.c:binned_dbnegate", "src/binned/ddbconv.c:binned_ddbconv", "src/binned/zbzbadd.c:binned_zbzbadd", "src/binned/zbdbset.c:binned_zbdbset", "src/binned/zzbconv_sub.c:binned_zzbconv_sub"]}
{"id": "C60", "title": "The routines agree with one another", "statement": "Bit for bit and whatever strides, layouts, block sizes and tunings: the sum is the dot product with a vector of ones; the absolute sum is the sum of the absolute values; an entry of a matrix-vector product (alpha 1, beta 0) is the dot product of the row with the vector; a column of a matrix-matrix product (alpha 1, any beta) is the matrix-vector product with that column; the product of the transposed factors in exchanged order is the transpose of the product; the sum of a complex vector is the pair of the sums of its parts; the absolute sum of a complex vector is the absolute sum of its interleaved words; the unconjugated complex dot product is symmetric and the real part of the conjugated one is the real dot product of the interleaved words (complex dot products with blocks of at most half the endurance, see C42).", "quantifier": "all vectors and matrices of finite elements with finite products within the capacity, all strides, layouts, transpositions, tile sizes, tunings of either routine, folds >= 2, both precisions", "why_tests_cant": "each is an equality of two differently structured programs (different loops, blockings, kernels) for all inputs; tests compare a few against a tolerance", "anchors": ["src/reproBLAS/rdsum.c:reproBLAS_rdsum", "src/reproBLAS/rdasum.c:reproBLAS_rdasum", "src/reproBLAS/rddot.c:reproBLAS_rddot", "src/reproBLAS/rdgemv.c:reproBLAS_rdgemv", "src/reproBLAS/rdgemm.c:reproBLAS_rdgemm", "src/reproBLAS/rzsum_sub.c:reproBLAS_rzsum_sub", "src/reproBLAS/rdzasum.c:reproBLAS_rdzasum", "src/reproBLAS/rzdotu_sub.c:reproBLAS_rzdotu_sub", "src/reproBLAS/rzdotc_sub.c:reproBLAS_rzdotc_sub"]}
{"id": "C61", "title": "A larger fold only adds bins", "statement": "The binned value that a program, or a vector routine, computes with fold n consists of the first n bins (primaries and carries) of the value it computes with any larger fold, bit for bit: choosing a larger fold adds accuracy and changes nothing else.", "quantifier": "all legal settled histories and all vectors of finite elements within the capacity, all pairs of folds 2 <= n <= k, all pairs of tunings, both precisions", "why_tests_cant": "holds for every pair of folds and every history; the kernels for different folds are different generated code", "anchors": ["src/binned/dmddeposit.c:binned_dmddeposit", "src/binned/dmrenorm.c:binned_dmrenorm", "src/binned/dmdmadd.c:binned_dmdmadd", "src/binnedBLAS/dmdsum.ccog:binnedBLAS_dmdsum", "src/binnedBLAS/dmddot.ccog:binnedBLAS_dmddot"]}
{"id": "C62", "title": "The statements written by the code generator compute the lane-by-lane sum", "statement": "Whatever the C variables contain when a generated kernel is entered, executing the assignments that the generator emits for the routine (sum, sum of absolute values, sum of squares, dot product, and the complex versions) leaves in the primaries of the accumulator exactly the values obtained by depositing the elements lane by lane and consolidating the lanes; a fold that is expanded into registers and one that is kept in a buffer give the same primaries, and no primary behind the fold is written.", "quantifier": "every vectorization (scalar, SSE, AVX), every admissible tuning, real and complex, every increment (also negative or zero), every vector length, every fold (2 and more when expanded, 1 and more when buffered), every memory contents and every initial contents of all registers and buffers", "why_tests_cant": "the generated files only instantiate one tuning per machine; stale registers, wrong slices and remainder loads show up only for particular combinations of length, fold, width and unrolling", "anchors": ["src/binned/deposit.py", "src/binnedBLAS/depositSum.py", "src/binnedBLAS/depositASum.py", "src/binnedBLAS/depositSSq.py", "src/binnedBLAS/depositDot.py", "src/gen/vectorizations.py", "src/gen/utils.py", "src/gen/dataTypes.py"]}
{"id": "C63", "title": "The statements written by the generator for the maximum kernels compute the largest absolute value", "statement": "Whatever the C variables contain when a generated maximum routine (damax, damaxm, zamax_sub, zamaxm_sub and the single versions) is entered, executing the assignments that the generator emits returns the maximum of the absolute values (of the elements, or of the products, for complex data one maximum per part, serving both the conjugated and the unconjugated dot product) that the lane model computes; without NaNs that is exactly the largest magnitude present, and the accumulator is not written.", "quantifier": "every vectorization, every admissible tuning and unrolling, real and complex, one or two vectors, every increment, every length, every memory contents and initial register contents", "why_tests_cant": "a stale lane or a wrong slice of the remainder load changes the maximum only for particular combinations of length, width and data; an underestimated maximum corrupts the sum only for data whose largest element sits in the missed lane", "anchors": ["src/binnedBLAS/amax.py", "src/binnedBLAS/amaxm.py", "src/gen/vectorizations.py", "src/gen/utils.py"]}
{"id": "C64", "title": "A vector routine executed statement by statement in memory has the specified effect", "statement": "Run a vector routine (sum, sum of absolute values, sum of squares with scaling, dot product, their complex versions, the norms) on one flat memory holding the vectors, the accumulator and the temporaries with arbitrary strides, the maximum and the deposits being done by the statements the generator emits, with uninitialised local variables: if the words of the accumulator are distinct and the vectors and temporaries do not overlap it, the accumulator (and the returned scale) becomes what the specification says and no word besides the accumulator and the temporaries is written; the converted result is the conversion of the specified sum, and the norm returned is the norm; two machines with different vector units, tunings, layouts, strides and register garbage obtain the same bits for permuted vectors.", "quantifier": "every vectorization and tuning, every memory contents, every address and stride of vectors and accumulator, every length, fold, initial scale, contents of uninitialised variables in every round, expanded or buffered kernels", "why_tests_cant": "a test runs one machine, one layout and one register state; the claim is about all of them at once", "anchors": ["src/binnedBLAS/dmdsum.ccog", "src/binnedBLAS/dmdasum.ccog", "src/binnedBLAS/dmddot.ccog", "src/binnedBLAS/dmdssq.ccog", "src/binnedBLAS/dmzasum.ccog", "src/binnedBLAS/dmzssq.ccog", "src/binnedBLAS/zmzsum.ccog", "src/binnedBLAS/zmzdotu.ccog", "src/binnedBLAS/zmzdotc.ccog", "src/binned/zmdrescale.c", "src/reproBLAS/rdnrm2.c", "src/reproBLAS/rdznrm2.c", "src/binned/deposit.py", "src/binnedBLAS/amax.py", "src/binnedBLAS/amaxm.py"]}
{"id": "C65", "title": "The SSE and AVX instructions compute the lane arithmetic exactly", "statement": "Executed on registers of 128 or 256 bits holding arbitrary garbage, with memory holding arbitrary bit patterns, the intrinsics the generator writes for a deposit or maximum kernel (unaligned loads, strided sets, partial loads, broadcasts, and/or/xor with masks computed from floating-point constants, shuffles with immediate operands, the constant subtracted when registers are combined, stores and scalar reductions) leave in the accumulator the bits of the numbers of the specified kernel: same sums, absolute sums, sums of squares, real and complex dot products, maxima. The masks act on every register contents as setting the last bit, clearing the sign, changing the sign of the imaginary or the real parts; the shuffles exchange or copy the parts of complex numbers.", "quantifier": "both vector units, both precisions, real and complex data, every tuning that fills the register, all contents of registers, memory and accumulator (including infinities and NaN patterns), all increments, folds, lengths", "why_tests_cant": "2^128 and 2^256 register states; a wrong immediate or mask constant can be invisible on the numbers a test uses", "anchors": ["src/gen/vectorizations.py: SSE", "src/gen/vectorizations.py: AVX", "src/binned/deposit.py", "src/binnedBLAS/amax.py", "src/binnedBLAS/amaxm.py"]}
{"id": "C66", "title": "Matrix products over one flat memory: results, footprint, aliasing of buffers", "statement": "Executed as the C code executes them - operands, results, malloc'ed scratch buffers, packed tiles and the array of binned values all in one memory reached through pointers, every dot-product call being the generated routine run over that memory - the matrix-vector and matrix-matrix products (binned and ordinary results, real and complex) leave in every entry of the result exactly what the array-level specification says (C24, C25, C26, C45, C47), and write no word other than the result, the array of binned values and the scratch buffers (within their allocated sizes). The operands may overlap the ordinary result. Two machines with different vector units, tunings, tile sizes, memory layouts, storage orders and transposition flags give bit-identical results on equal matrices.", "quantifier": "all orders, transposition flags, dimensions, leading dimensions, increments, alpha, beta, tile sizes, tunings, register contents, memory contents and placements of the objects such that the work areas overlap neither each other nor the operands (for conjugate-transposed column-major complex gemv: matrices with at most as many columns as rows, otherwise the program reads outside its arguments)", "why_tests_cant": "all placements and memory contents; a packing loop that writes one word beyond its buffer or reads a stale tile shows up only for particular sizes and leftovers", "anchors": ["src/binnedBLAS/dbdgemv.ccog", "src/binnedBLAS/dbdgemm.ccog", "src/binnedBLAS/zbzgemv.ccog", "src/binnedBLAS/zbzgemm.ccog", "src/reproBLAS/rdgemv.c", "src/reproBLAS/rdgemm.c", "src/reproBLAS/rzgemv.c", "src/reproBLAS/rzgemm.c"]}
{"id": "C67", "title": "First use of the shared table of bins by several threads; table bounds", "statement": "The only mutable state shared by all accumulators is the lazily filled table of bins. If any number of threads make their first use of it at the same time, then in every interleaving of the individual reads and writes (flag and table entries), and whatever the table contained before, every thread reads from the table exactly the specified bin values, and no thread waits for another. No index computed from a number or from any word taken as the first word of a binned value leads outside the table.", "quantifier": "all numbers of threads, all interleavings of single accesses (sequentially consistent memory), all initial contents of the table, all indices and folds in range", "why_tests_cant": "the race is between the first calls of a process; the number of interleavings is astronomical and the bad ones are rare", "anchors": ["src/binned/dmbins.c: binned_dmbins, bins, bins_initialized", "src/binned/smbins.c: binned_smbins", "src/binned/dindex.c", "src/binned/dmindex.c"]}
{"id": "C68", "title": "Operations on separate accumulators are thread-safe; parallel sums do not depend on schedule, partition or collection order", "statement": "Threads that work on their own binned values (setting to zero, adding numbers, merging, copying, negating, converting) and share only data they read, do not disturb each other: in every interleaving of the individual memory accesses, including the first initialisation of the shared table of bins, a thread that finishes leaves exactly what it leaves when running alone, every thread finishes after a number of own steps independent of the schedule, and words nobody writes keep their values. So threads summing parts of a shared array each get the reproducible sum of their part, and after collecting the parts in any order the total has the same bits whatever the number of threads, partition, schedule and collection order.", "quantifier": "all numbers of threads, call sequences, placements, memory contents, interleavings of single accesses (sequentially consistent memory), partitions and collection orders; folds 2..max, both precisions", "why_tests_cant": "all schedules of all programs; a shared temporary would be disturbed only in rare interleavings", "anchors": ["src/binned/dmdadd.c", "src/binned/dmdupdate.c", "src/binned/dmddeposit.c", "src/binned/dmrenorm.c", "src/binned/dmdmadd.c", "src/binned/dmdmset.c", "src/binned/dmsetzero.c", "src/binned/dmnegate.c", "src/binned/ddmconv.c", "src/binned/ssmconv.c", "src/binned/dmbins.c"]}
{"id": "C69", "title": "Threads on a machine with store buffers (x86 total store order)", "statement": "What C67 and C68 say of sequentially consistent memory also holds on the memory model of the processors the vector code is written for: every thread's writes wait in a first-in-first-out store buffer and reach shared memory later, while the thread itself sees them at once. In every execution every thread's first use of the table of bins reads the specified values; threads working on separate accumulators leave, once done and their writes have reached memory, exactly what they leave when running alone; parallel sums depend only on the multiset of the summands. On a machine that lets writes overtake each other the same program fails.", "quantifier": "all numbers of threads, call sequences, placements, memory contents, all interleavings of accesses and of arrivals of buffered writes", "why_tests_cant": "effects of store buffers depend on processor timing and cannot be provoked reliably", "anchors": ["src/binned/dmbins.c: binned_dmbins, bins, bins_initialized", "src/binned/smbins.c: binned_smbins", "src/binned/dmdadd.c", "src/binned/dmdmadd.c", "src/binned/ddmconv.c"]}
{"id": "C70", "title": "Infinities and NaN in matrix products", "statement": "In the matrix-vector and matrix-matrix products with ordinary results (real data), each entry is determined by its own summands (beta times the previous entry, and its products) even if they contain infinities or NaN: the entry is NaN if a summand is NaN or there are infinities of both signs; if there are infinities of one sign it is that infinity, or NaN, never a finite number or the other infinity; and it is certainly that infinity if the finite summands are small enough not to overflow within a block (index at least 1). A previous entry that is multiplied by beta = 0, and the matrix and vector when alpha = 0, have no influence even if they are NaN. Special values in other rows or columns have no influence.", "quantifier": "all matrices, vectors, factors, storage orders, transposition flags, dimensions, strides, block sizes, tunings, buffer contents; both precisions; folds >= 2", "why_tests_cant": "all positions of special values relative to all tilings and block boundaries", "anchors": ["src/reproBLAS/rdgemv.c", "src/reproBLAS/rdgemm.c", "src/binnedBLAS/dbdgemv.ccog", "src/binnedBLAS/dbdgemm.ccog", "src/binnedBLAS/dmddot.ccog"]}
{"id": "C71", "title": "Whole vector routines on vector units, to the last bit of memory", "statement": "Executed on memory words with the SSE or AVX instructions the build selects, the vector routines (sum, absolute sum, dot product, sum of squares; real and complex) leave in the accumulator exactly the words of the documented result for the numbers the input words stand for, and every word outside the accumulator (and the temporaries they allocate) keeps its bits, whatever the vector registers contained. Two machines, one with SSE and one with AVX, with different tunings, layouts and strides, that sum permutations of the same words into accumulators with the same value end with the same words; so does a machine without a vector unit. The native wrappers return the conversion of the specified sum, and the norm. So do the native wrappers of the complex sum, dot products, absolute sum and norm; the native complex sum gives the same pair on two machines for permuted vectors.", "quantifier": "all memory contents (including NaN and infinity patterns for the per-routine statements), vector lengths, strides, accumulator layouts, folds, tunings, both vector units, both precisions, register contents", "why_tests_cant": "all memory contents, lengths, strides and register contents on two instruction sets; a test runs on the machine it runs on", "anchors": ["src/gen/vectorizations.py", "src/binned/deposit.py", "src/binnedBLAS/amax.py", "src/binnedBLAS/dmdsum.ccog", "src/binnedBLAS/dmddot.ccog", "src/binnedBLAS/dmdssq.ccog", "src/binnedBLAS/zmzsum.ccog", "src/binnedBLAS/dmzasum.ccog", "src/binnedBLAS/dmzssq.ccog", "src/reproBLAS/rzsum_sub.c:reproBLAS_rzsum_sub", "src/reproBLAS/rdznrm2.c:reproBLAS_rdznrm2"]}
{"id": "C72", "title": "Contraction into fused multiply-add does not change results", "statement": "Whichever of the library's multiply-then-add pairs a compiler turns into fused multiply-add instructions within one expression (as the C standard permits), and however that choice varies from place to place, every accumulation routine (add, update, batched deposit, merge, negate, renormalise; sum, absolute sum and sum of squares of real and complex vectors) leaves the same bits for every input, finite or not; so does the dot product whenever its products do not overflow (complex: are a factor of four below overflow), the conversion to a floating-point number, and the native sums, dot product and norms end to end. Exceptions, shown by executions of the model: a dot product with overflowing products can return NaN with one choice and infinity with another; the products with a complex alpha or beta are rounded differently; and fusing a product across statements into the remainder of its own deposit changes a dot product.", "quantifier": "all contraction choices at every place (per element, per bin, per loop round), all inputs and accumulator states, folds, tunings and both precisions", "why_tests_cant": "the choice is the compiler's, at every multiply-add in the program, and differs between compilers and flags; a test runs one binary", "anchors": ["src/binned/deposit.py", "src/binned/dmddeposit.c", "src/binned/ddmconv.c", "src/binned/ssmconv.c", "src/binnedBLAS/dmddot.ccog", "src/binnedBLAS/zmzdotu.ccog", "src/binnedBLAS/zmzdotc.ccog", "src/binnedBLAS/zbzgemv.ccog", "src/reproBLAS/rzgemv.c", "config.mk"]}
{"id": "C73", "title": "Threads may call the vector routines concurrently", "statement": "Any number of threads may call the vector routines (sum, absolute sum, dot product, complex sum and dot products, absolute sum and scaled sum of squares of real and complex vectors) and the operations on binned values at the same time, on shared read-only vectors, as long as no thread writes words another thread uses. In every interleaving of the individual memory accesses, and on a machine with store buffers, every finished thread has left exactly what its calls leave when it runs alone, and every thread finishes after a number of own steps independent of the others. Hence a sum, absolute sum or dot product split over threads and collected in any order gives bits depending only on the multiset of summands, also if the threads use differently tuned kernels. Two threads that share an accumulator can lose a summand.", "quantifier": "all numbers of threads, sequences of calls, vector lengths, strides (including negative and zero), tunings, memory contents (special values included), schedules and store-buffer behaviours, folds, both precisions", "why_tests_cant": "the number of interleavings is unbounded, a test run shows a few; the first use of the lazily filled table of bins by several threads happens once per process", "anchors": ["src/binnedBLAS/dmdsum.ccog", "src/binnedBLAS/dmdasum.ccog", "src/binnedBLAS/dmddot.ccog", "src/binnedBLAS/dmdssq.ccog", "src/binnedBLAS/dmzssq.ccog", "src/binnedBLAS/dmzasum.ccog", "src/binnedBLAS/zmzsum.ccog", "src/binnedBLAS/zmzdotu.ccog", "src/binnedBLAS/zmzdotc.ccog", "src/binned/dmbins.c", "src/binned/dmdrescale.c", "src/binned/zmdrescale.c", "src/binned/dmdmaddsq.c"]}
{"id": "C74", "title": "No int overflow as long as the arrays are not too large", "statement": "If every array of a call, counted in words with the gaps between strided elements, has at most 2147483647 words, and for the matrix products also the arrays of binned values (2*fold words for a real, 4*fold for a complex entry), the scaled copies and the tiles, then no int expression of the vector routines, the matrix products and their wrappers overflows (loop counters, block bounds, subscripts, pointer increments in the generated kernels, with all strides, also negative and zero), and the routines do what is proved of them for unbounded integers. reproBLAS_rdgemm, rsgemm, rzgemm, rcgemm violate the condition on their own: whenever M*N*2*fold exceeds that bound, e.g. for 20000 by 20000 and the default fold, the subscript of the internal array overflows although all arrays of the caller are small enough. The operations on single binned values do not overflow if the strides (doubled for complex values) and the subscript of the last bin are representable, which holds for the packed types with every fold below 2^30; where that subscript is not representable they overflow.", "quantifier": "all lengths, dimensions, strides, leading dimensions, orders, transpositions, tunings and block sizes, memory contents, folds, both precisions", "why_tests_cant": "overflow appears only with arrays of gigabytes, and signed overflow is undefined behaviour that a test need not show", "anchors": ["src/binnedBLAS/dmdsum.ccog", "src/binnedBLAS/zmzdotc.ccog", "src/binnedBLAS/dbdgemv.ccog", "src/binnedBLAS/dbdgemm.ccog", "src/binnedBLAS/zbzgemv.ccog", "src/binnedBLAS/zbzgemm.ccog", "src/reproBLAS/rdgemv.c", "src/reproBLAS/rdgemm.c", "src/reproBLAS/rzgemm.c", "src/gen/vectorizations.py", "src/gen/dataTypes.py", "src/binned/dmdmadd.c", "src/binned/dmdupdate.c", "src/binned/zmzdeposit.c", "src/binned/zmdrescale.c", "src/binned/dbdbaddv.c"]}
{"id": "C75", "title": "Real matrix products are accurate: close to the exact value of the whole expression", "statement": "If no term overflows, every entry of reproBLAS_rdgemv/rsgemv (rdgemm/rsgemm) differs from the exact real value of alpha*op(A)*x + beta*y (alpha*op(A)*op(B) + beta*C) by at most the error of the reproducible summation (n * 2^-W(fold-1) times the largest term), a relative 2^-(p-3) of the result, 3*2^-p times the same expression with absolute values, and an underflow contribution of half the smallest subnormal per term (plus one such unit times the elements of the matrix if the product with alpha underflows). It is infinite only if the exact value reaches the overflow threshold up to these errors, and never NaN.", "quantifier": "all dimensions, orders, transpositions, strides, leading dimensions, alpha, beta, data, folds, tunings, tile sizes, buffer contents, both precisions", "why_tests_cant": "a bound over all data, including cancellation and gradual underflow; tests compare a few random matrices", "anchors": ["src/reproBLAS/rdgemv.c", "src/reproBLAS/rdgemm.c", "src/binnedBLAS/dbdgemv.ccog", "src/binnedBLAS/dbdgemm.ccog"]}
{"id": "C76", "title": "Complex dot and matrix products are accurate", "statement": "If no product overflows, both parts of reproBLAS_rzdotu_sub, rzdotc_sub, rzgemv and rzgemm (and the single precision versions) differ from those of the exact complex value of the dot product, alpha*op(A)*x + beta*y, alpha*op(A)*op(B) + beta*C by at most the error of the reproducible summation, a relative 2^-(p-3) of the part, and the rounding errors of the terms: 2^-p (dot) or 6*2^-p (products with alpha and beta) times the same expression with absolute values, and a few units of underflow per term.", "quantifier": "all dimensions, orders, transpositions and conjugations, strides, alpha, beta, data, folds, tunings, tile sizes, both precisions", "why_tests_cant": "a bound over all data, including cancellation and gradual underflow", "anchors": ["src/reproBLAS/rzdotu_sub.c", "src/reproBLAS/rzdotc_sub.c", "src/reproBLAS/rzgemv.c", "src/reproBLAS/rzgemm.c", "src/binnedBLAS/zbzgemv.ccog", "src/binnedBLAS/zbzgemm.ccog", "src/binnedBLAS/zmzdotu.ccog"]}
{"id": "C77", "title": "Distributed matrix products do not depend on the distribution", "statement": "Compute an entry of alpha*op(A)*op(B) with several calls of binnedBLAS_dbdgemm and dbdgemv, each on some part of the inner dimension, with its own copies of the data in its own storage order, transposed or not, with its own tuning and tiles, starting from zero or from the result of earlier calls, and merge the binned results with binned_dbdbadd in any reduction tree: the bits are always the same, those of one call on the whole matrices, and reproBLAS_rdgemm returns their conversion.", "quantifier": "all partitions of the inner dimension, orders of the parts, layouts, transpositions, tunings, tiles, buffer contents, reduction trees, mixtures of gemv and gemm, folds, finite data", "why_tests_cant": "the number of ways to distribute a product is unbounded", "anchors": ["src/binnedBLAS/dbdgemm.ccog", "src/binnedBLAS/dbdgemv.ccog", "src/binned/dbdbadd.c", "src/reproBLAS/rdgemm.c"]}
{"id": "C78", "title": "The arguments file through the life of the autotuner", "statement": "Whatever configurations the searches propose and call best within the ranges given to them, the tuner fails with no exception of its own; at every moment, so at every crash point, the arguments file is as before the start, in the middle of a write, or holds a legal value of every parameter, with the parameters of other vectorizations and of untuned benchmarks unchanged; the tuner can be restarted from every such state; after a run a parameter has the value of the best configuration of the last benchmark that has it; code is generated with exactly the values in the file, and builds with any two files the tuner leaves return the same sums. A crash in a write leaves a file with which neither tuning nor generation works, and an interrupted run leaves the values of a trial.", "quantifier": "all parameter spaces with valid bounds and legal defaults, benchmarks, sequences of runs, trials and proposals, contents of the file, crash points, restarts", "why_tests_cant": "the search is random and runs for hours; the crash points are unbounded", "anchors": ["tune/ReproBLASOpenTuner.py", "src/gen/generate.py"]}
{"id": "C79", "title": "The matrix products are the BLAS operations on the matrices stored", "statement": "For the letters r, R, c, C for the storage order and n, N, t, T, c, C for the operation: if the arrays passed to reproBLAS_rdgemv and rdgemm hold given matrices and vectors in the storage order the letter names, the result holds, entry by entry, the conversion of the reproducible sum of the entry times beta and of the products of alpha*op(A) with x or op(B), and nothing else changes. The same mathematical operands give the same bits in every storage order.", "quantifier": "all letters, sizes, matrices, leading dimensions, strides, scalars, tunings, tiles, buffer contents, folds", "why_tests_cant": "the matrices, sizes and strides are unbounded", "anchors": ["src/reproBLAS/rdgemv.c", "src/reproBLAS/rdgemm.c", "src/binnedBLAS/dbdgemv.ccog", "src/binnedBLAS/dbdgemm.ccog"]}
{"id": "C80", "title": "Distributed complex matrix products are reproducible", "statement": "An entry of a complex matrix product computed by any program of zbzgemm and zbzgemv calls on pieces of the operands, in any storage order, transposition, split of the inner dimension, distribution over processes and order of zbzbadd merges, has the bits of the reproducible sums of the real and imaginary terms of its pairs of factors, and rzgemm with beta = 0 returns the conversion of it. The same holds when threads run rzgemm on blocks of a common result, under any interleaving of their memory accesses. Proved for the argument combinations for which the complex routines are right.", "quantifier": "all programs of calls, splits, orders, layouts, transpositions, tunings, tiles, buffer contents, folds, finite inputs", "why_tests_cant": "the number of ways to split and merge is unbounded", "anchors": ["src/binnedBLAS/zbzgemm.ccog", "src/binnedBLAS/zbzgemv.ccog", "src/binned/dmdmadd.c", "src/reproBLAS/rzgemm.c"]}
{"id": "C81", "title": "Threads may call the matrix products concurrently; the parallel product equals the sequential one", "statement": "Threads call the real and complex matrix-vector and matrix-matrix products of binnedBLAS and reproBLAS, together with vector routines and operations on binned values, each thread its own sequence of calls, no thread writing words that another one uses (the lazily filled bin table excepted). In every interleaving of the single memory accesses, with or without store buffers, each finished thread has left exactly what its calls leave when run alone from the initial memory, and words nobody writes are unchanged. In particular rdgemm run by several threads on blocks of a common result gives every entry the bits one single-threaded call gives it, whatever the partition, the number of threads, their tunings and block sizes.", "quantifier": "all numbers of threads, sequences of calls, shapes, layouts, operands, schedules of single accesses and of store buffer flushes, partitions, tunings, block sizes", "why_tests_cant": "schedules, partitions and inputs are unbounded; races show only under rare schedules", "anchors": ["src/binnedBLAS/dbdgemm.ccog", "src/binnedBLAS/dbdgemv.ccog", "src/binnedBLAS/zbzgemm.ccog", "src/binnedBLAS/zbzgemv.ccog", "src/reproBLAS/rdgemm.c", "src/reproBLAS/rdgemv.c", "src/reproBLAS/rzgemm.c", "src/reproBLAS/rzgemv.c", "src/binned/dmbins.c"]}
{"id": "C82", "title": "A parallel matrix product with a dynamically split inner dimension is reproducible", "statement": "Threads take slabs of the inner dimension, of any sizes and in any order, call dbdgemm on them into their own cleared arrays of binned values, and when all are done the main thread adds the arrays with dbdbadd in any order and converts with ddbconv: every entry has the bits of the reproducible sum of its products - those that one single-threaded rdgemm with beta = 0 gives -, whatever the slabs, the number of threads, which thread got which slab, the tunings, the block sizes and the interleaving of memory accesses, with or without store buffers.", "quantifier": "all slab decompositions and assignments to threads, schedules of single accesses and flushes, shapes, layouts, transpositions, tunings, block sizes, register contents, finite operands up to the capacity", "why_tests_cant": "assignments and schedules of a dynamic scheduler differ from run to run; their number is unbounded", "anchors": ["src/binnedBLAS/dbdgemm.ccog", "src/binned/dbdbadd.c", "src/binned/ddbconv.c", "src/binned/dbsetzero.c", "src/reproBLAS/rdgemm.c", "src/binned/dmbins.c"]}
{"id": "C83", "title": "The parts of the entries of complex matrix products are independent; infinities and NaN stay in their entry and part", "statement": "rzgemv/rzgemm (and c versions), in the branches where C45/C47 hold: each part (real or imaginary) of each entry of the result depends on its own summands only - its part of beta*y and the products that belong to it. If one of them is NaN, or infinities of both signs occur, that part is NaN; an infinite summand gives that infinity or NaN, never a finite number, for all block sizes. With blocks small enough, finite summands give the conversion of their reproducible sum whatever infinities and NaN occur in the other part or in other entries, and a single kind of infinity gives exactly that infinity if the finite summands are below 2^(MAX_EXP-W).", "quantifier": "all matrices and vectors with infinities, NaN and overflowing products at any positions, alpha, beta, previous contents, layouts, strides, tunings, block sizes, buffer contents, folds", "why_tests_cant": "depends on the position of special products relative to tiles and blocks and on the state of both parts; unbounded", "anchors": ["src/reproBLAS/rzgemv.c:reproBLAS_rzgemv", "src/reproBLAS/rzgemm.c:reproBLAS_rzgemm", "src/binnedBLAS/zbzgemv.ccog", "src/binnedBLAS/zbzgemm.ccog", "src/binnedBLAS/zmzdotu.ccog", "src/binnedBLAS/zmzdotc.ccog"]}
{"id": "C84", "title": "The text a code generator assembles has every chunk once, in its place and at its depth", "statement": "For any sequence of CodeBlock calls on a block and the blocks created inside it, in any interleaving: str() of the outermost block has, apart from empty lines, first each included chunk once in the order of first inclusion, then the written chunks in the order of writing, each line indented by the depth of its block at that moment, and the complete text of an inner block at the place where that block was created, whenever it was filled. No line of an inner block is less indented than the place where it was created. The only way to be stopped is the assertion of dedent, and it stops exactly if a block is dedented as often as indented. Calling str() again gives the same lines apart from empty lines (but not the same text: violated).", "quantifier": "all sequences of calls of all methods on all blocks, all chunks (with any newlines), all depths", "why_tests_cant": "the generators interleave writes to blocks inside with writes to the outer ones; the histories and the nesting are unbounded", "anchors": ["src/gen/utils.py:CodeBlock", "src/gen/utils.py:CodeBlock.sub_block", "src/gen/utils.py:CodeBlock.__str__", "src/gen/generate.py:generate"]}
