{
 "claims": [
  {
   "property": "C01",
   "status": "partial",
   "theorems": [
    "Altruct.Base.C01_isqrt_partial",
    "Altruct.Base.C01_isqrt_overflow",
    "Altruct.Base.C01_isqrt_negative_seed",
    "Altruct.Base.C01_isqrtc_partial",
    "Altruct.Base.C01_sqrtT",
    "Altruct.Base.C01_sqrtT_neg",
    "Altruct.Base.C01_is_square"
   ],
   "note": "sqrtT and is_square are proved for every integer of at most 2^63 bits. isqrt/isqrtc are proved on the whole range where the code has no int32 overflow; C01_isqrt_overflow shows the remaining inputs x >= (2^31-1)^2 are undefined behaviour in the code."
  },
  {
   "property": "C02",
   "status": "partial",
   "theorems": [
    "Altruct.Base.C02_icbrt_partial",
    "Altruct.Base.C02_icbrt_overflow",
    "Altruct.Base.C02_icbrtc_partial",
    "Altruct.Base.C02_cbrtT",
    "Altruct.Base.C02_cbrtT_neg",
    "Altruct.Base.C02_is_cube"
   ],
   "note": "cbrtT and is_cube are proved for every integer of at most 2^62 bits. icbrt/icbrtc are proved on the whole range where the code has no int64 overflow; C02_icbrt_overflow shows the rest is undefined behaviour in the code."
  },
  {
   "property": "C03",
   "status": "proved",
   "theorems": [
    "Altruct.Base.C03_gcd_dvd",
    "Altruct.Base.C03_gcd_greatest",
    "Altruct.Base.C03_gcd_nonneg",
    "Altruct.Base.C03_gcd_sign_caveat",
    "Altruct.Base.C03_gcd_ex_bezout",
    "Altruct.Base.C03_gcd_ex_gcd",
    "Altruct.Base.C03_gcd_ex_eq_gcd",
    "Altruct.Base.C03_lcm",
    "Altruct.Base.C03_gcd_max"
   ],
   "note": "gcd, gcd_ex, gcd_max and lcm over unbounded integers; C03_gcd_sign_caveat shows the documented sign caveat."
  },
  {
   "property": "C04",
   "status": "proved",
   "theorems": [
    "Altruct.Base.C04_powT",
    "Altruct.Base.C04_powT_nonpos"
   ],
   "note": "any monoid, any exponent."
  },
  {
   "property": "C05",
   "status": "proved",
   "theorems": [
    "Altruct.Base.C05_div_floor",
    "Altruct.Base.C05_div_ceil",
    "Altruct.Base.C05_div_round",
    "Altruct.Base.C05_multiple"
   ],
   "note": "floor, ceiling and nearest rounding of the exact rational quotient, and least multiple."
  },
  {
   "property": "C06",
   "status": "proved",
   "theorems": [
    "Altruct.Modulo.C06_add",
    "Altruct.Modulo.C06_sub",
    "Altruct.Modulo.C06_neg",
    "Altruct.Modulo.C06_mul_long",
    "Altruct.Modulo.C06_mul",
    "Altruct.Modulo.C06_add_signed_partial",
    "Altruct.Modulo.C06_add_signed_overflow",
    "Altruct.Modulo.C06_sub_signed_partial",
    "Altruct.Modulo.C06_neg_signed",
    "Altruct.Modulo.C06_mul_signed"
   ],
   "note": "unsigned words of 8, 16, 32 and 64 bits (mul_long for every width); signed words: exact under the stated size bound, C06_add_signed_overflow shows the bound is needed."
  },
  {
   "property": "C07",
   "status": "proved",
   "theorems": [
    "Altruct.Modulo.C07_inv_signed",
    "Altruct.Modulo.C07_gcd_ex_signed",
    "Altruct.Modulo.C07_gcd_ex_unsigned",
    "Altruct.Modulo.C07_inv_unsigned",
    "Altruct.Modulo.C07_inv_unsigned_none",
    "Altruct.Modulo.C07_div_unsigned"
   ],
   "note": "unsigned words (cofactors wrap) and checked signed words."
  },
  {
   "property": "C08",
   "status": "proved",
   "theorems": [
    "Altruct.Modulo.C08_modulo_power",
    "Altruct.Modulo.C08_ring",
    "Altruct.Modulo.C08_instance_unnormalised"
   ],
   "note": "every expression over constants, +, -, unary -, *, powT; constructing from the minimum value of a signed type is outside the model (the code negates it). C08_instance_unnormalised documents a caveat of per-instance moduli."
  },
  {
   "property": "C09",
   "status": "partial",
   "theorems": [
    "Altruct.Modulo.C09_unsigned_partial",
    "Altruct.Modulo.C09_unsigned_wrap_bug",
    "Altruct.Modulo.C09_signed"
   ],
   "note": "signed words: solutions and solvability are exact when lcm <= 2^(w-2). Unsigned words: proved when the difference of residues does not wrap; C09_unsigned_wrap_bug shows the code gives a wrong answer otherwise."
  },
  {
   "property": "C10",
   "status": "proved",
   "theorems": [
    "Altruct.Modulo.C10_jacobi",
    "Altruct.Modulo.C10_legendre",
    "Altruct.Modulo.C10_negative_wrong"
   ],
   "note": "C10_negative_wrong shows the hypothesis n >= 0 is needed."
  },
  {
   "property": "C11",
   "status": "proved",
   "theorems": [
    "Altruct.Primes.C11_primes",
    "Altruct.Primes.C11_primes_only_q",
    "Altruct.Primes.C11_primes_only_p",
    "Altruct.Primes.C11_terminator_out_of_bounds"
   ],
   "note": "both arrays, only the flags, or only the list (flags then share the bytes of the list); n up to 2^32 with the index arithmetic checked against the int limit. C11_terminator_out_of_bounds shows the extra entry is needed."
  },
  {
   "property": "C12",
   "status": "proved",
   "theorems": [
    "Altruct.Primes.C12_moebius_mu",
    "Altruct.Primes.C12_moebius_mu_zero",
    "Altruct.Primes.C12_segmented_mu",
    "Altruct.Primes.C12_segmented_q",
    "Altruct.Primes.C12_segmented_q_short",
    "Altruct.Primes.C12_segmented_phi",
    "Altruct.Primes.C12_prime_pi",
    "Altruct.Primes.C12_prime_pi_small",
    "Altruct.Primes.C12_euler_phi",
    "Altruct.Primes.C12_prime_nu",
    "Altruct.Primes.C12_factor",
    "Altruct.Primes.C12_divisor_sigma0",
    "Altruct.Primes.C12_divisor_sigma1",
    "Altruct.Primes.C12_smallest_factor",
    "Altruct.Primes.C12_smallest_factor_zero"
   ],
   "note": "prime_pi, euler_phi, moebius_mu, prime_nu, factor, smallest_factor, divisor_sigma0/1 and the three segmented tables; index arithmetic is checked against the limit of the type, and the stated bounds exclude its overflows. C12_prime_pi_small, C12_smallest_factor_zero, C12_moebius_mu_zero and C12_segmented_q_short show the small-range preconditions are needed."
  },
  {
   "property": "C13",
   "status": "proved",
   "theorems": [
    "Altruct.Primes.C13_from_primes",
    "Altruct.Primes.C13_fraction_reduce",
    "Altruct.Primes.C13_factor_table",
    "Altruct.Primes.C13_factor_out",
    "Altruct.Primes.C13_factor_integer",
    "Altruct.Primes.C13_factor_integer_to_map",
    "Altruct.Primes.C13_factor_integer_product",
    "Altruct.Primes.C13_factor_integer_slow",
    "Altruct.Primes.C13_from_factorization"
   ],
   "note": "factor tables, factor_integer (vector, map and product versions), factor_out, trial division, from_factorization, from_primes and fraction_reduce. Factorisation by Pollard rho is property C50."
  },
  {
   "property": "C14",
   "status": "proved",
   "theorems": [
    "Altruct.Primes.C14_divisors_unsorted",
    "Altruct.Primes.C14_divisors",
    "Altruct.Primes.C14_divisors_overflow",
    "Altruct.Primes.C14_squarefree_signed_divisors",
    "Altruct.Primes.C14_prime_factors",
    "Altruct.Primes.C14_prime_exponents",
    "Altruct.Primes.C14_sigma0",
    "Altruct.Primes.C14_euler_phi",
    "Altruct.Primes.C14_carmichael"
   ],
   "note": "divisors, squarefree_signed_divisors, prime_factors, prime_exponents, divisor_sigma0, euler_phi and carmichael_lambda of a factorisation. The type of the divisors must hold n * p; C14_divisors_overflow shows this is needed."
  },
  {
   "property": "C15",
   "status": "proved",
   "theorems": [
    "Altruct.Search.C15_kmp_search",
    "Altruct.Search.C15_kmp_search_all",
    "Altruct.Search.C15_empty_pattern"
   ],
   "note": "the reported positions are exactly all occurrences, in increasing order; C15_empty_pattern shows what happens for an empty pattern."
  },
  {
   "property": "C16",
   "status": "proved",
   "theorems": [
    "Altruct.Search.C16_binary_search_pred",
    "Altruct.Search.C16_binary_search_num",
    "Altruct.Search.C16_lower_bound_num",
    "Altruct.Search.C16_lower_bound_num_decreasing",
    "Altruct.Search.C16_upper_bound_num",
    "Altruct.Search.C16_upper_bound_num_decreasing"
   ],
   "note": "indices are unbounded integers; predicate evaluations outside the interval are undefined in the model, so never evaluating outside is part of the statement."
  },
  {
   "property": "C17",
   "status": "proved",
   "theorems": [
    "Altruct.Dsu.C17_disjoint_set",
    "Altruct.Dsu.C17_find_stable"
   ],
   "note": "every history of find/unite/count/init on every size."
  },
  {
   "property": "C18",
   "status": "proved",
   "theorems": [
    "Altruct.Fenwick.C18_fenwick"
   ],
   "note": "every history of adds over every commutative group / monoid as stated in the theorem."
  },
  {
   "property": "C19",
   "status": "proved",
   "theorems": [
    "Altruct.Heap.C19_binary_heap",
    "Altruct.Heap.C19_sort",
    "Altruct.Heap.C19_pop_all"
   ],
   "note": "every history of insert, pop, rebuild and sort for every strict weak order."
  },
  {
   "property": "C20",
   "status": "proved",
   "theorems": [
    "Altruct.SegTree.C20_segment_tree",
    "Altruct.SegTree.C20_segment_tree_sized"
   ],
   "note": "every associative operation with identity (not necessarily commutative), every history of set, direct assignment and the three rebuilds; queries are exact whenever every assigned position has been rebuilt."
  },
  {
   "property": "C21",
   "status": "proved",
   "theorems": [
    "Altruct.LazySeg.C21_lazy_segment_tree",
    "Altruct.LazySeg.C21_lazy_segment_tree_sized"
   ],
   "note": "any functors satisfying the stated laws (updates are endomorphisms of the monoid of values), functors that reject nodes, and every history of update, get, restore and direct edits."
  },
  {
   "property": "C22",
   "status": "partial",
   "theorems": [
    "Altruct.BitVector.C22_reverse",
    "Altruct.BitVector.C22_swap",
    "Altruct.BitVector.C22_rotate",
    "Altruct.BitVector.C22_hamming_distance",
    "Altruct.BitVector.C22_compare",
    "Altruct.BitVector.C22_history",
    "Altruct.BitVector.C22_new",
    "Altruct.BitVector.C22_resize",
    "Altruct.BitVector.C22_reserve",
    "Altruct.BitVector.C22_set",
    "Altruct.BitVector.C22_bit_at",
    "Altruct.BitVector.C22_proxy",
    "Altruct.BitVector.C22_push_back",
    "Altruct.BitVector.C22_pop_back",
    "Altruct.BitVector.C22_of_list",
    "Altruct.BitVector.C22_apply",
    "Altruct.BitVector.C22_apply2",
    "Altruct.BitVector.C22_not",
    "Altruct.BitVector.C22_logical",
    "Altruct.BitVector.C22_to_string",
    "Altruct.BitVector.C22_shift_right",
    "Altruct.BitVector.C22_shift_right_too_far",
    "Altruct.BitVector.C22_shift_left_partial",
    "Altruct.BitVector.C22_shift_left_wrong",
    "Altruct.BitVector.C22_shift_left_dirty",
    "Altruct.BitVector.C22_shift_left_too_far"
   ],
   "note": "Everything of the class is modelled and proved for all inputs and histories except operator <<=: it reads words it has already overwritten, so its full statement is false (C22_shift_left_wrong, C22_shift_left_dirty, C22_shift_left_too_far); C22_shift_left_partial gives the vectors on which its result is right. >>= by more words than the vector has is undefined (C22_shift_right_too_far)."
  },
  {
   "property": "C23",
   "status": "proved",
   "theorems": [
    "Altruct.Bits.C23_hi_bit",
    "Altruct.Bits.C23_lo_bit",
    "Altruct.Bits.C23_is_pow2",
    "Altruct.Bits.C23_next_pow2",
    "Altruct.Bits.C23_gray_inverse",
    "Altruct.Bits.C23_gray_step",
    "Altruct.Bits.C23_sign_mag",
    "Altruct.Bits.C23_single_bits",
    "Altruct.Bits.C23_single_bits_range",
    "Altruct.Bits.C23_or_down",
    "Altruct.Bits.C23_xor_down",
    "Altruct.Bits.C23_init",
    "Altruct.Bits.C23_ilog2",
    "Altruct.Bits.C23_ilog2_signed",
    "Altruct.Bits.C23_bit_cnt1",
    "Altruct.Bits.C23_bit_reverse",
    "Altruct.Bits.C23_lzc",
    "Altruct.Bits.C23_tzc",
    "Altruct.Bits.C23_next_combination",
    "Altruct.Bits.C23_next_combination_zero"
   ],
   "note": "All functions of bits.h and the table based ones of bits.cpp, at 8, 16, 32 and 64 bits (the purely bitwise ones at any width). next_combination(0) shifts by the word width, which is undefined (C23_next_combination_zero)."
  },
  {
   "property": "C24",
   "status": "proved",
   "theorems": [
    "Altruct.BST.C24_run",
    "Altruct.BST.C24_iterate",
    "Altruct.BST.C24_step_iterator",
    "Altruct.BST.C24_sorted",
    "Altruct.BST.C24_size",
    "Altruct.BST.C24_find",
    "Altruct.BST.C24_count",
    "Altruct.BST.C24_kth",
    "Altruct.BST.C24_insert_result",
    "Altruct.BST.C24_erase_returns_parent",
    "Altruct.BST.C24_erase_negative"
   ],
   "note": "Heap model of the pointer tree with sentinel node, parent links and subtree sizes, refined against a sorted list of (iterator, value, count) over every history of insert, erase by key, erase by iterator and erase of a range, in the three duplicate modes, for every strict weak order. Iteration, ++/--, size, empty, find, lower_bound, upper_bound, count_less(_or_equal), count, find_kth, iterator position and the iterator returned by insert. Not modelled: copy, clear (frees only the root), relational operators. Findings: erase returns the parent of the removed node, a negative count adds copies."
  },
  {
   "property": "C25",
   "status": "proved",
   "theorems": [
    "Altruct.Treap.C25_run",
    "Altruct.Treap.C25_iterate",
    "Altruct.Treap.C25_same_as_tree",
    "Altruct.Treap.C25_step_iterator",
    "Altruct.Treap.C25_size",
    "Altruct.Treap.C25_find",
    "Altruct.Treap.C25_count",
    "Altruct.Treap.C25_kth",
    "Altruct.Treap.C25_heap",
    "Altruct.Treap.C25_reinsert",
    "Altruct.Treap.C25_partial_erase",
    "Altruct.Treap.C25_negative_random"
   ],
   "note": "Heap model on top of the tree model of C24; every history in the three duplicate modes and every sequence of random values in [0, random_max). Contents, iteration, size, find, counts and k-th element are those of the list specification, and the same as the plain tree gives; heap order of priorities under the stated condition, with both exceptions proved. Not modelled: copy, clear."
  },
  {
   "property": "C26",
   "status": "proved",
   "theorems": [
    "Altruct.Rope.C26_run",
    "Altruct.Rope.C26_iterate",
    "Altruct.Rope.C26_size",
    "Altruct.Rope.C26_at",
    "Altruct.Rope.C26_iterator"
   ],
   "note": "Rope refined against a plain list for every history of insert, push_back, erase, range erase and assignment, every allocator and every sequence of random values; iteration, size, operator[], positions and arithmetic of iterators."
  },
  {
   "property": "C27",
   "status": "proved",
   "theorems": [
    "Altruct.Maps.C27_sqrt_map",
    "Altruct.Maps.C27_stale",
    "Altruct.Maps.C27_lohi_map",
    "Altruct.Maps.C27_lohi_at_absent"
   ],
   "note": "sqrt_map: every history over keys that are at most max_lo_key or quotients of the current max_key, including reset_max, agrees with a finite map; quotients never collide. lohi_map: every history agrees with a finite map provided at() with a small key and the value of m[k] are used only for keys that are present; C27_stale and C27_lohi_at_absent show what happens otherwise. Negative keys are outside the model."
  },
  {
   "property": "C28",
   "status": "proved",
   "theorems": [
    "Altruct.Parser.C28_parse_evaluate",
    "Altruct.Parser.C28_every_text",
    "Altruct.Parser.C28_basic_prefixTight",
    "Altruct.Parser.C28_loose_prefix",
    "Altruct.Parser.C28_no_arguments"
   ],
   "note": "Every operator table; expressions with operands, prefix and infix operators, parentheses, calls with at least one argument and comma-separated lists, of any size. Existence of the tree for every text needs prefix operators that bind at least as tightly as all others; both exceptions (looser prefix operators, calls without arguments) are proved as negative results. Malformed texts are not covered."
  },
  {
   "property": "C29",
   "status": "proved",
   "theorems": [
    "Altruct.IO.C29_history",
    "Altruct.IO.C29_capacity_zero",
    "Altruct.IO.C29_string_writer"
   ],
   "note": "Any history of write_char, write, write_string, formatted output, integers and flush, any capacity >= 1, both buffered_writer and fast_write, and string_writer. Floating-point output is not modelled."
  },
  {
   "property": "C30",
   "status": "proved",
   "theorems": [
    "Altruct.IO.C30_history",
    "Altruct.IO.C30_short_read",
    "Altruct.IO.C30_skip_whitespaces",
    "Altruct.IO.C30_read_line",
    "Altruct.IO.C30_read_string"
   ],
   "note": "Any history of read_char, unread_char, read, data, skip and operator bool on buffered_reader for any capacity, initial buffer content and chunking; skip_whitespaces, read_line and read_string for buffered_reader and fast_read. Floating-point input is not modelled."
  },
  {
   "property": "C31",
   "status": "proved",
   "theorems": [
    "Altruct.IO.C31_read_int",
    "Altruct.IO.C31_round_trip",
    "Altruct.IO.C31_least_value",
    "Altruct.IO.C31_byte_255",
    "Altruct.IO.C31_write_int"
   ],
   "note": "Exact text written, exact value read, and the round trip for any list of integers through any pair of buffers; the least value of a type (overflow) and the byte 255 are shown as exceptions."
  },
  {
   "property": "C32",
   "status": "proved",
   "theorems": [
    "Altruct.Hash.C32_add",
    "Altruct.Hash.C32_add_hash",
    "Altruct.Hash.C32_sub_shr",
    "Altruct.Hash.C32_shifts",
    "Altruct.Hash.C32_arith",
    "Altruct.Hash.C32_compare",
    "Altruct.Hash.C32_get",
    "Altruct.Hash.C32_position_independent",
    "Altruct.Hash.C32_tables_initial",
    "Altruct.Hash.C32_negative_elements",
    "Altruct.Hash.C32_assign_twice",
    "Altruct.Hash.C32_modulus_too_large"
   ],
   "note": "polynomial_hash and cumulative_hash for every number of bases, including the shared static tables and signed overflow"
  },
  {
   "property": "C33",
   "status": "proved",
   "theorems": [
    "Altruct.Concurrency.C33_exactly_once",
    "Altruct.Concurrency.C33_deterministic",
    "Altruct.Concurrency.C33_terminates",
    "Altruct.Concurrency.C33_mutual_exclusion",
    "Altruct.Concurrency.C33_range_jobs",
    "Altruct.Concurrency.C33_range_sum"
   ],
   "note": "every interleaving of any number of threads at the granularity of the steps of the loop (provider and collector calls are split into a read and a write, so that lost updates would show): exactly-once execution and collection, schedule independence, bounded length of every schedule and deadlock freedom, mutual exclusion; range_job_provider and add_result_collector. Not modelled: exceptions, spurious failure of std::thread, create_worker (called by all threads without a lock), overflow of begin + len."
  },
  {
   "property": "C34",
   "status": "proved",
   "theorems": [
    "Altruct.Collections.C34_take_filter_transform",
    "Altruct.Collections.C34_run_length",
    "Altruct.Collections.C34_run_length_unique",
    "Altruct.Collections.C34_compare",
    "Altruct.Collections.C34_compare_default"
   ],
   "note": "take, filter, transform, run_length (with uniqueness of the encoding) and compare; the int counter of a run is unbounded in the model"
  },
  {
   "property": "C35",
   "status": "proved",
   "theorems": [
    "Altruct.Collections.C35_sum_product",
    "Altruct.Collections.C35_min_max",
    "Altruct.Collections.C35_min_default",
    "Altruct.Collections.C35_max_default_wrong",
    "Altruct.Collections.C35_mex",
    "Altruct.Collections.C35_mex_duplicates"
   ],
   "note": "reduce, sum, product, min, max and mex over unbounded integers; the wrong default identity of reduce_max and the wrong mex of containers with duplicates are proved as negative theorems"
  },
  {
   "property": "C36",
   "status": "proved",
   "theorems": [
    "Altruct.Fraction.C36_reduce",
    "Altruct.Fraction.C36_eq",
    "Altruct.Fraction.C36_compare",
    "Altruct.Fraction.C36_arith",
    "Altruct.Fraction.C36_assign",
    "Altruct.Fraction.C36_expr",
    "Altruct.Fraction.C36_zero_denominator"
   ],
   "note": "fraction over unbounded integers: reduction, equality, order, arithmetic, aliased operands, expressions and the zero denominator"
  },
  {
   "property": "C37",
   "status": "proved",
   "theorems": [
    "Altruct.Polynom.C37_deg",
    "Altruct.Polynom.C37_add",
    "Altruct.Polynom.C37_mul_long",
    "Altruct.Polynom.C37_karatsuba",
    "Altruct.Polynom.C37_mul_raw",
    "Altruct.Polynom.C37_mul",
    "Altruct.Polynom.C37_times",
    "Altruct.Polynom.C37_mul_scalar",
    "Altruct.Polynom.C37_mul_scalar_alias",
    "Altruct.Polynom.C37_eval",
    "Altruct.Polynom.C37_derivative",
    "Altruct.Polynom.C37_cmp_eq"
   ],
   "note": "polynom.h: degree, negation, addition, subtraction, multiplication (schoolbook and Karatsuba for every threshold, every truncation, every aliasing of destination and operands), scalar multiplication, evaluation, derivative and equality over every commutative ring; a scalar that lives inside the destination is proved to go wrong"
  },
  {
   "property": "C38",
   "status": "proved",
   "theorems": [
    "Altruct.Polynom.C38_div_scalar",
    "Altruct.Polynom.C38_inverse_ring",
    "Altruct.Polynom.C38_inverse",
    "Altruct.Polynom.C38_quot_rem_ring",
    "Altruct.Polynom.C38_quot_rem",
    "Altruct.Polynom.C38_div_mod_ring",
    "Altruct.Polynom.C38_div_mod",
    "Altruct.Polynom.C38_euclid",
    "Altruct.Polynom.C38_div_zero",
    "Altruct.Polynom.C38_integral"
   ],
   "note": "schoolbook and power series division, inverse and division by a scalar over every commutative ring when the leading (constant) coefficient can be divided by exactly, hence over every field; integral over every field; the floating point choice between the two division algorithms is an arbitrary function of the degrees; the destination may be the dividend but not the divisor"
  },
  {
   "property": "C39",
   "status": "proved",
   "theorems": [
    "Altruct.LinAlg.C39_add",
    "Altruct.LinAlg.C39_mul",
    "Altruct.LinAlg.C39_transpose",
    "Altruct.LinAlg.C39_det",
    "Altruct.LinAlg.C39_inverse",
    "Altruct.LinAlg.C39_rank",
    "Altruct.LinAlg.C39_rank_singular"
   ],
   "note": "over every field and every size; rank() of a singular matrix is proved to be wrong on a concrete matrix; pow is the generic powT of C04"
  },
  {
   "property": "C40",
   "status": "proved",
   "theorems": [
    "Altruct.Permutation.C40_spec_cycles",
    "Altruct.Permutation.C40_to_line",
    "Altruct.Permutation.C40_of_line",
    "Altruct.Permutation.C40_to_line_isLine",
    "Altruct.Permutation.C40_line_roundtrip",
    "Altruct.Permutation.C40_cycles_roundtrip",
    "Altruct.Permutation.C40_cycles_normalise",
    "Altruct.Permutation.C40_mul",
    "Altruct.Permutation.C40_mul_apply",
    "Altruct.Permutation.C40_inv",
    "Altruct.Permutation.C40_div",
    "Altruct.Permutation.C40_pow",
    "Altruct.Permutation.C40_of_transpositions",
    "Altruct.Permutation.C40_transpositions_roundtrip",
    "Altruct.Permutation.C40_size",
    "Altruct.Permutation.C40_transpositions_to_cycles",
    "Altruct.Permutation.C40_all_cycles",
    "Altruct.Permutation.C40_mul_order"
   ],
   "note": "every n, every valid permutation, every integer exponent; machine overflow of j + T and -T is not modelled; root() is not modelled; the pointwise reading of the comment on operator* is shown to be the wrong way round"
  },
  {
   "property": "C41",
   "status": "proved",
   "theorems": [
    "Altruct.Convolution.C41_slow",
    "Altruct.Convolution.C41_or",
    "Altruct.Convolution.C41_and",
    "Altruct.Convolution.C41_xor",
    "Altruct.Convolution.C41_max",
    "Altruct.Convolution.C41_subset_sum",
    "Altruct.Convolution.C41_subset_sum_inverse",
    "Altruct.Convolution.C41_slow_subset",
    "Altruct.Convolution.C41_subset_conv"
   ],
   "note": "Every aliasing pattern of the arrays is covered; commutative ring elements; log_n < 31/32 so that 1 << log_n is defined is the only omitted machine bound; xor division by n is a parameter with the law x*n/n = x."
  },
  {
   "property": "C42",
   "status": "proved",
   "theorems": [
    "Altruct.Fft.C42_cyclic",
    "Altruct.Fft.C42_convolution",
    "Altruct.Fft.C42_cyclic_convolution",
    "Altruct.Fft.C42_fft",
    "Altruct.Fft.C42_fft_bad_size",
    "Altruct.Fft.C42_fft_rec",
    "Altruct.Fft.C42_fft_rec_principal"
   ],
   "note": "fft, fft_rec, fft_cyclic_convolution, convolution and cyclic_convolution over every commutative ring; the root condition is w^(n/2) = -1, derived from the principal-root definition when 2 is a unit; floating point rounding is not modelled"
  },
  {
   "property": "C43",
   "status": "proved",
   "theorems": [
    "Altruct.Sums.C43_sum_ratio",
    "Altruct.Sums.C43_sum",
    "Altruct.Sums.C43_sum_sqrt",
    "Altruct.Sums.C43_sum_sqrt2m",
    "Altruct.Sums.C43_sum_sqrt2m_f",
    "Altruct.Sums.C43_sum_sqrt2",
    "Altruct.Sums.C43_sum_sqrt_lib"
   ],
   "note": "sum, sum_ratio (every sign of a, b, q and n), sum_sqrt, both sum_sqrt2m overloads and sum_sqrt2 over every commutative ring; the square root is a parameter that only has to be positive, instantiated with the modelled sqrtT"
  },
  {
   "property": "C44",
   "status": "proved",
   "theorems": [
    "Altruct.Combinatorics.C44_next_combination",
    "Altruct.Combinatorics.C44_combinations_visited",
    "Altruct.Combinatorics.C44_next_partition",
    "Altruct.Combinatorics.C44_partitions_visited",
    "Altruct.Combinatorics.C44_nth_perm",
    "Altruct.Combinatorics.C44_nth_mod",
    "Altruct.Combinatorics.C44_nth_strictMono",
    "Altruct.Combinatorics.C44_nth_surjective"
   ],
   "note": "nth_permutation: permutation, index modulo d!, strictly increasing in the index, surjective; next_partition and next_combination: neighbour in lexicographic order, wrap-around, and every object visited from the first one; next_combination needs distinct elements (an example shows that equal elements are skipped); factorials do not overflow"
  },
  {
   "property": "C45",
   "status": "proved",
   "theorems": [
    "Altruct.Convergents.C45_cf_value",
    "Altruct.Convergents.C45_cf_terms",
    "Altruct.Convergents.C45_convergent_value",
    "Altruct.Convergents.C45_det",
    "Altruct.Convergents.C45_semi",
    "Altruct.Convergents.C45_roundtrip"
   ],
   "note": "continued_fraction for every sign; convergents for non-negative terms (examples show that negative terms are dropped), with any non-negative number of semi-convergents"
  },
  {
   "property": "C46",
   "status": "proved",
   "theorems": [
    "Altruct.Alloc.C46_history",
    "Altruct.Alloc.C46_clear_live"
   ],
   "note": "every history of allocate/deallocate/clear with any malloc outcomes; C46_clear_live shows what clear() does while slots are live. The implicitly generated copy of the allocator (shares the pool) is not modelled."
  },
  {
   "property": "C47",
   "status": "proved",
   "theorems": [
    "Altruct.LinkCut.C47_run",
    "Altruct.LinkCut.C47_traverse",
    "Altruct.LinkCut.C47_paths",
    "Altruct.LinkCut.C47_link_not_root"
   ],
   "note": "For every history of add, link, cut, assignments through get, find_root, find_parent, find_lca, depth, get and traverse from the empty structure, executed on the pointer heap with the real splay code, no undefined behaviour occurs and all answers are those of the rooted forest (C47_run); any aggregate over an associative, not necessarily commutative operation with identity whose f_up keeps the own value. traverse with an arbitrary callback is a search on the root path (C47_traverse). The paths used in the specification are complete (C47_paths). C47_link_not_root: linking a non-root silently attaches its root instead."
  },
  {
   "property": "C48",
   "status": "proved",
   "theorems": [
    "Altruct.Graph.C48_delete_edge",
    "Altruct.Graph.C48_delete_node",
    "Altruct.Graph.C48_add",
    "Altruct.Graph.C48_add_edge2",
    "Altruct.Graph.C48_contract"
   ],
   "note": "delete_edge, delete_node, add_node, add_edge, add_edge2 and contract, for every multigraph with arbitrary edge data."
  },
  {
   "property": "C49",
   "status": "proved",
   "theorems": [
    "Altruct.Recurrence.C49_coeff_to_poly",
    "Altruct.Recurrence.C49_poly_to_coeff",
    "Altruct.Recurrence.C49_round_trip",
    "Altruct.Recurrence.C49_polymod_pow",
    "Altruct.Recurrence.C49_linear_recurrence",
    "Altruct.Recurrence.C49_exists_unique",
    "Altruct.Recurrence.C49_next",
    "Altruct.Recurrence.C49_fibonacci",
    "Altruct.Recurrence.C49_order_two",
    "Altruct.Recurrence.C49_lucas_l",
    "Altruct.Recurrence.C49_lucas_u",
    "Altruct.Recurrence.C49_lucas_v"
   ],
   "note": "every commutative ring in which x / 1 = x (division by the leading coefficient 1 of the characteristic polynomial), values in any module, every order and every n >= 0; conversions, linear_recurrence_next, Fibonacci and Lucas sequences"
  },
  {
   "property": "C50",
   "status": "proved",
   "theorems": [
    "Altruct.Factorization.C50_miller_rabin_prime",
    "Altruct.Factorization.C50_miller_rabin_composite",
    "Altruct.Factorization.C50_miller_rabin_witness",
    "Altruct.Factorization.C50_miller_rabin_all_bases",
    "Altruct.Factorization.C50_miller_rabin_small",
    "Altruct.Factorization.C50_pollard_rho",
    "Altruct.Factorization.C50_pollard_rho_repeated",
    "Altruct.Factorization.C50_factor_integer",
    "Altruct.Factorization.C50_factorization"
   ],
   "note": "unsigned 8/16/32/64-bit types; every prime is accepted whatever the bases, a base not coprime to n rejects, the test with all bases is exact, the automatic choice of bases is proved exact below 2304 only (the published bounds of the larger ranges are not proved); pollard_rho returns a divisor different from 1; factor_integer terminates with product n, and is the prime factorisation whenever the bases it returns are prime"
  },
  {
   "property": "C51",
   "status": "proved",
   "theorems": [
    "Altruct.Digits.C51_integer_digits",
    "Altruct.Digits.C51_from_digits",
    "Altruct.Digits.C51_integer_round_trip",
    "Altruct.Digits.C51_digits_round_trip",
    "Altruct.Digits.C51_negative",
    "Altruct.Digits.C51_integer_string",
    "Altruct.Digits.C51_string_out_of_range",
    "Altruct.Digits.C51_rational_digit",
    "Altruct.Digits.C51_rational_digits",
    "Altruct.Digits.C51_repeating_decimal",
    "Altruct.Digits.C51_overflow"
   ],
   "note": "unbounded integers for integer_digits/from_digits/integer_string (negative numbers have no digits, digits above 36 read outside the table); unsigned 8/16/32/64-bit types with b*q representable for the expansions of fractions; expansion, termination and minimality of pre-period and period"
  },
  {
   "property": "C52",
   "status": "proved",
   "theorems": [
    "Altruct.Dirichlet.C52_calc_multiplicative",
    "Altruct.Dirichlet.C52_convolution_multiplicative",
    "Altruct.Dirichlet.C52_division_multiplicative",
    "Altruct.Dirichlet.C52_inverse_multiplicative",
    "Altruct.Dirichlet.C52_moebius_transform_multiplicative",
    "Altruct.Dirichlet.C52_calc_completely",
    "Altruct.Dirichlet.C52_convolution_completely",
    "Altruct.Dirichlet.C52_division_completely",
    "Altruct.Dirichlet.C52_inverse_completely",
    "Altruct.Dirichlet.C52_moebius_transform_completely",
    "Altruct.Dirichlet.C52_convolution",
    "Altruct.Dirichlet.C52_division",
    "Altruct.Dirichlet.C52_division_unique",
    "Altruct.Dirichlet.C52_inverse",
    "Altruct.Dirichlet.C52_moebius_transform",
    "Altruct.Dirichlet.C52_sieve_m",
    "Altruct.Dirichlet.C52_sieve_m1",
    "Altruct.Dirichlet.C52_sieve_m_multiplicative_inv",
    "Altruct.Dirichlet.C52_sieve_m_multiplicative"
   ],
   "note": "over any commutative ring; arbitrary functions (existence and uniqueness), multiplicative and completely multiplicative variants (division there needs g(1) = 1: a documented-as-allowed g(1) different from 1 gives a wrong table, shown by example), Moebius transforms, sieve_m and its multiplicative variants (which need M[0] = 0 on entry)"
  },
  {
   "property": "C53",
   "status": "proved",
   "theorems": [
    "Altruct.Convergents.C53_sqrt_convergent",
    "Altruct.Convergents.C53_sqrt_convergent_square",
    "Altruct.Convergents.C53_sqrt_convergent_lib"
   ],
   "note": "the square root is a parameter that is the floor square root, instantiated with the modelled sqrtT; convergents in the sense of Mathlib's Real.convergent; unbounded integers"
  },
  {
   "property": "C54",
   "status": "proved",
   "theorems": [
    "Altruct.Recurrence.C54_berlekamp_massey_poly",
    "Altruct.Recurrence.C54_berlekamp_massey",
    "Altruct.Recurrence.C54_too_short"
   ],
   "note": "every field (A = T), every sequence with a recurrence of order at most N/2, N >= 2; also that a single element makes it divide by zero"
  },
  {
   "property": "C55",
   "status": "proved",
   "theorems": [
    "Altruct.Recurrence.C55_bernoulli_recurrence",
    "Altruct.Recurrence.C55_bernoulli"
   ],
   "note": "over the rationals equal to the Mathlib Bernoulli numbers; in general fields the defining recurrence"
  },
  {
   "property": "C56",
   "status": "proved",
   "theorems": [
    "Altruct.Digits.C56_farey_right",
    "Altruct.Digits.C56_farey_left",
    "Altruct.Digits.C56_farey_start",
    "Altruct.Digits.C56_farey_negative",
    "Altruct.Digits.C56_farey_walk"
   ],
   "note": "unbounded integers; started with an infinity at a negative fraction it goes the wrong way (proved)"
  },
  {
   "property": "C57",
   "status": "proved",
   "theorems": [
    "Altruct.Dirichlet.C57_sum_m",
    "Altruct.Dirichlet.C57_sum_m1"
   ],
   "note": "any commutative ring, tables as finite maps, the integer root a parameter (any value between 1 and n is enough)"
  },
  {
   "property": "C58",
   "status": "proved",
   "theorems": [
    "Altruct.Dirichlet.C58_sqfree_count",
    "Altruct.Dirichlet.C58_sieve_sqfree_count"
   ],
   "note": "any commutative ring, tables as finite maps, exact integer square root assumed (C01), cube root any value between 1 and n"
  },
  {
   "property": "C59",
   "status": "proved",
   "theorems": [
    "Altruct.Dirichlet.C59_coprime_sum",
    "Altruct.Dirichlet.C59_divisor_sigma"
   ],
   "note": "any commutative ring"
  },
  {
   "property": "C60",
   "status": "proved",
   "theorems": [
    "Altruct.Series.C60_add",
    "Altruct.Series.C60_mul",
    "Altruct.Series.C60_mul_zero_precision",
    "Altruct.Series.C60_pointwise_mul",
    "Altruct.Series.C60_sub_mul",
    "Altruct.Series.C60_sub_pow",
    "Altruct.Series.C60_shift",
    "Altruct.Series.C60_shift_beyond",
    "Altruct.Series.C60_make_ordinary",
    "Altruct.Series.C60_of",
    "Altruct.Series.C60_derivative",
    "Altruct.Series.C60_powT",
    "Altruct.Series.C60_composition",
    "Altruct.Series.C60_composition_zero_precision",
    "Altruct.Series.C60_inverse_ring",
    "Altruct.Series.C60_div_ring",
    "Altruct.Series.C60_div_scalar",
    "Altruct.Series.C60_integral",
    "Altruct.Series.C60_integral_char",
    "Altruct.Series.C60_ln",
    "Altruct.Series.C60_exp",
    "Altruct.Series.C60_exp_ln",
    "Altruct.Series.C60_pow",
    "Altruct.Series.C60_pow_zero_series",
    "Altruct.Series.C60_pow_overflow",
    "Altruct.Series.C60_reversion",
    "Altruct.Series.C60_reversion_left",
    "Altruct.Series.C60_reversion_none",
    "Altruct.Series.C60_make_exponential",
    "Altruct.Series.C60_egf_round_trip",
    "Altruct.Series.C60_exp_of",
    "Altruct.Series.C60_pointwise_div",
    "Altruct.Series.C60_find_root",
    "Altruct.Series.C60_find_root_sqrt"
   ],
   "note": "Every field for ln, exp, pow, reversion, integral and find_root when 1..N are invertible (C60_integral_char shows the code needs N itself invertible); multiplication, composition, substitution and shifts over every commutative ring; inverse and division also over rings in which the constant term divides exactly. Powers of a series without constant term need lowest*a <= N above the threshold (otherwise undefined, proved), the zero series recurses forever there (proved). Storage modes other than INSTANCE share the same operations and are not separate models."
  },
  {
   "property": "C61",
   "status": "proved",
   "theorems": [
    "Altruct.Ranges.C61_range",
    "Altruct.Ranges.C61_powers",
    "Altruct.Ranges.C61_factorials",
    "Altruct.Ranges.C61_power",
    "Altruct.Ranges.C61_negate",
    "Altruct.Ranges.C61_alternate",
    "Altruct.Ranges.C61_accumulate",
    "Altruct.Ranges.C61_differentiate",
    "Altruct.Ranges.C61_accumulate_differentiate",
    "Altruct.Ranges.C61_inv_factorials",
    "Altruct.Ranges.C61_inv_factorials_beyond",
    "Altruct.Ranges.C61_inverses",
    "Altruct.Ranges.C61_inverses_empty",
    "Altruct.Ranges.C61_invert",
    "Altruct.Ranges.C61_invert_field",
    "Altruct.Ranges.C61_invert_field_zero"
   ],
   "note": "Every commutative ring or field; inv_factorials past its table, inverses of an empty range and invert_field with a zero element are shown to be wrong or undefined."
  },
  {
   "property": "C62",
   "status": "proved",
   "theorems": [
    "Altruct.NumTheory.C62_euler_phi",
    "Altruct.NumTheory.C62_divisor_sigma0",
    "Altruct.NumTheory.C62_carmichael_lambda",
    "Altruct.NumTheory.C62_prime_factors",
    "Altruct.NumTheory.C62_squarefree_signed_divisors",
    "Altruct.NumTheory.C62_multiplicative_order_g",
    "Altruct.NumTheory.C62_multiplicative_order",
    "Altruct.NumTheory.C62_primitive_root",
    "Altruct.NumTheory.C62_primitive_root_exists",
    "Altruct.NumTheory.C62_primitive_root_of_unity",
    "Altruct.NumTheory.C62_primitive_root_prim",
    "Altruct.NumTheory.C62_kth_roots_powers",
    "Altruct.NumTheory.C62_kth_roots_of_unity_powers",
    "Altruct.NumTheory.C62_kth_roots",
    "Altruct.NumTheory.C62_kth_roots_of_unity",
    "Altruct.NumTheory.C62_kth_roots_of_unity_not_all"
   ],
   "note": "All moduli and factorizations; existence of a primitive root exactly for 1, 2, 4, p^k, 2p^k follows from Mathlib. kth_roots_of_unity without a primitive root returns only part of the roots (C62_kth_roots_of_unity_not_all). Values are unbounded integers."
  },
  {
   "property": "C63",
   "status": "proved",
   "theorems": [
    "Altruct.NumTheory.C63_brute_force_g",
    "Altruct.NumTheory.C63_baby_giant_g",
    "Altruct.NumTheory.C63_order_pp_g",
    "Altruct.NumTheory.C63_discrete_log_g",
    "Altruct.NumTheory.C63_brute_force",
    "Altruct.NumTheory.C63_baby_giant",
    "Altruct.NumTheory.C63_shanks",
    "Altruct.NumTheory.C63_oddp",
    "Altruct.NumTheory.C63_discrete_log",
    "Altruct.NumTheory.C63_order_pp_not_power",
    "Altruct.NumTheory.C63_discrete_log_p2",
    "Altruct.NumTheory.C63_discrete_log_pp"
   ],
   "note": "Every finite-order element of every monoid for the _g versions. The variants that require b to be a power of a do not detect a violation (C63_order_pp_not_power)."
  },
  {
   "property": "C64",
   "status": "proved",
   "theorems": [
    "Altruct.NumTheory.C64_sqrt_cipolla",
    "Altruct.NumTheory.C64_sqrt_cipolla_ends",
    "Altruct.NumTheory.C64_sqrt_hensel_lift",
    "Altruct.NumTheory.C64_sqrt_hensel_lift_p2",
    "Altruct.NumTheory.C64_sqrt_p2_negative",
    "Altruct.NumTheory.C64_sqrt_mod"
   ],
   "note": "sqrt_cipolla also shown to end for non-residues (C64_sqrt_cipolla_ends; the value returned is then not a root and sqrt_mod checks it). A negative y modulo 2^k is reported to have no root (C64_sqrt_p2_negative)."
  },
  {
   "property": "C65",
   "status": "proved",
   "theorems": [
    "Altruct.NumTheory.C65_garner",
    "Altruct.NumTheory.C65_garner_decreasing"
   ],
   "note": "Word sizes 8, 16, 32 and 64 bits, on the machine arithmetic of C06 and C07. The moduli have to increase, which the documentation does not say: C65_garner_decreasing shows a wrong result otherwise."
  },
  {
   "property": "C66",
   "status": "proved",
   "theorems": [
    "Altruct.Quadratic.C66_ring",
    "Altruct.Quadratic.C66_conjugate",
    "Altruct.Quadratic.C66_pow",
    "Altruct.Quadratic.C66_norm_mul",
    "Altruct.Quadratic.C66_div",
    "Altruct.Quadratic.C66_norm_ne_zero",
    "Altruct.Quadratic.C66_gaussian_gcd_diverges",
    "Altruct.Quadratic.C66_mod_int",
    "Altruct.Quadratic.C66_div_exact",
    "Altruct.Quadratic.C66_order"
   ],
   "note": "Any commutative coefficient ring. C66_gaussian_gcd_diverges: base.h gcd on Gaussian integers may run for ever, since % rounds the quotient towards zero. Operations between numbers with different D are not modelled."
  },
  {
   "property": "C67",
   "status": "proved",
   "theorems": [
    "Altruct.Nimber.C67_nim_product",
    "Altruct.Nimber.C67_laws",
    "Altruct.Nimber.C67_closed",
    "Altruct.Nimber.C67_mul",
    "Altruct.Nimber.C67_mul2",
    "Altruct.Nimber.C67_sqrt",
    "Altruct.Nimber.C67_lift",
    "Altruct.Nimber.C67_inverse",
    "Altruct.Nimber.C67_div",
    "Altruct.Nimber.C67_history"
   ],
   "note": "The product is specified by the minimal-excluded-value rule; existence, uniqueness and the field laws are proved (no Mathlib nimber theory is used). The cache is explicit state. hash and stream output are not modelled."
  },
  {
   "property": "C68",
   "status": "proved",
   "theorems": [
    "Altruct.Moebius.C68_add",
    "Altruct.Moebius.C68_sub",
    "Altruct.Moebius.C68_mul_inf",
    "Altruct.Moebius.C68_div_inf",
    "Altruct.Moebius.C68_neg_infinity",
    "Altruct.Moebius.C68_infinities_differ",
    "Altruct.Moebius.C68_eval",
    "Altruct.Moebius.C68_compose",
    "Altruct.Moebius.C68_inverse",
    "Altruct.Moebius.C68_quotient",
    "Altruct.Moebius.C68_normalize",
    "Altruct.Moebius.C68_normalize_canonical",
    "Altruct.Moebius.C68_generators"
   ],
   "note": "The entries the documentation marks as undefined are left out of the tables. Findings: unary minus makes infinity finite (C68_neg_infinity) and two infinite values may compare unequal (C68_infinities_differ)."
  },
  {
   "property": "C69",
   "status": "proved",
   "theorems": [
    "Altruct.Clifford.C69_ring",
    "Altruct.Clifford.C69_generators",
    "Altruct.Clifford.C69_basis",
    "Altruct.Clifford.C69_universal",
    "Altruct.Clifford.C69_mixed",
    "Altruct.Clifford.C69_reverse",
    "Altruct.Clifford.C69_reflect",
    "Altruct.Clifford.C69_rotate",
    "Altruct.Clifford.C69_rotate_compose",
    "Altruct.Clifford.C69_inverse",
    "Altruct.Clifford.C69_make_rotor",
    "Altruct.Clifford.C69_alias",
    "Altruct.Clifford.C69_clifford"
   ],
   "note": "Exact arithmetic: rounding of floating-point coefficients is not modelled; make_rotor takes an exact square root as a parameter. C69_alias: m *= m.r is wrong because the argument aliases a member. Comparison operators and casts are not modelled."
  },
  {
   "property": "C70",
   "status": "proved",
   "theorems": [
    "Altruct.Pga.C70_ring",
    "Altruct.Pga.C70_generators",
    "Altruct.Pga.C70_basis",
    "Altruct.Pga.C70_bilinear",
    "Altruct.Pga.C70_grades",
    "Altruct.Pga.C70_graded",
    "Altruct.Pga.C70_join",
    "Altruct.Pga.C70_reverse",
    "Altruct.Pga.C70_point_on_plane",
    "Altruct.Pga.C70_meet_planes",
    "Altruct.Pga.C70_meet_line",
    "Altruct.Pga.C70_join_points",
    "Altruct.Pga.C70_join_line",
    "Altruct.Pga.C70_reflect",
    "Altruct.Pga.C70_compose",
    "Altruct.Pga.C70_two_planes",
    "Altruct.Pga.C70_rotate",
    "Altruct.Pga.C70_translate",
    "Altruct.Pga.C70_rotor",
    "Altruct.Pga.C70_inverse",
    "Altruct.Pga.C70_inverse_line",
    "Altruct.Pga.C70_inverse_motor",
    "Altruct.Pga.C70_inverse_odd",
    "Altruct.Pga.C70_inverse_line_needs",
    "Altruct.Pga.C70_sandwich_needs",
    "Altruct.Pga.C70_sandwich_even",
    "Altruct.Pga.C70_sandwich_odd",
    "Altruct.Pga.C70_clifford",
    "Altruct.Pga.C70_exterior",
    "Altruct.Pga.C70_product_universal",
    "Altruct.Pga.C70_wedge_universal"
   ],
   "note": "Exact arithmetic; the compile-time choice of result types is not modelled (all results are written in the widest type) and neither is the dangling reference of zero - b (pga.h:555). rotor(n, a) is modelled with the cosine and sine of the half angle as inputs. C70_sandwich_needs and C70_inverse_line_needs show that the orthogonality conditions are necessary."
  },
  {
   "property": "C71",
   "status": "proved",
   "theorems": [
    "Altruct.Sums.C71_sum_pow_small",
    "Altruct.Sums.C71_sum_pow_table",
    "Altruct.Sums.C71_sum_pow",
    "Altruct.Sums.C71_sum_pow_rat",
    "Altruct.Sums.C71_sum_pow_int",
    "Altruct.Sums.C71_sum_pow_int_needs",
    "Altruct.Sums.C71_sum_powx",
    "Altruct.Sums.C71_polynom_sum",
    "Altruct.Sums.C71_sequences",
    "Altruct.Sums.C71_polyhedral",
    "Altruct.Sums.C71_sum_sigma"
   ],
   "note": "Exponents are not negative and n >= 0. C71_sum_pow_int_needs: integers with p > 3 give a wrong sum, as documented. The static table is shared by all moduli of a moduloX type: mixing moduli at run time is not covered."
  },
  {
   "property": "C72",
   "status": "proved",
   "theorems": [
    "Altruct.PrimeCount.C72_prime_power_sum_sqrt",
    "Altruct.PrimeCount.C72_prime_power_sum_sqrt_int",
    "Altruct.PrimeCount.C72_prime_sum_pi",
    "Altruct.PrimeCount.C72_zero",
    "Altruct.PrimeCount.C72_prime_pi13_sqrt",
    "Altruct.PrimeCount.C72_prime_pi13",
    "Altruct.PrimeCount.C72_sqrt_lib"
   ],
   "note": "sqrtT is a parameter that must be the floor of the square root (C72_sqrt_lib: the library version is). n = 0 divides by zero in prime_power_sum_sqrt (C72_zero); prime_sum and prime_pi test for it. Machine overflow of k * p is not modelled."
  },
  {
   "property": "C73",
   "status": "proved",
   "theorems": [
    "Altruct.Counting.C73_factorial_prime_exponent",
    "Altruct.Counting.C73_not_prime",
    "Altruct.Counting.C73_binomial_prime_exponent",
    "Altruct.Counting.C73_multinomial_prime_exponent",
    "Altruct.Counting.C73_multinomial",
    "Altruct.Counting.C73_multinomial_int",
    "Altruct.Counting.C73_elements_multinomial",
    "Altruct.Counting.C73_elements_multinomial_int",
    "Altruct.Counting.C73_elements_unsorted"
   ],
   "note": "Natural-number arguments; machine overflow is not modelled. C73_not_prime: p = 1 never ends and p = 0 divides by zero. C73_elements_unsorted: elements_multinomial counts wrongly when equal elements are not adjacent, as its comment requires. multinomial needs exact division by the small numbers (integers, or a field where they are invertible)."
  },
  {
   "property": "C74",
   "status": "proved",
   "theorems": [
    "Altruct.Counting.C74_first_kind",
    "Altruct.Counting.C74_second_kind",
    "Altruct.Counting.C74_s1_all",
    "Altruct.Counting.C74_s2_all",
    "Altruct.Counting.C74_factorial",
    "Altruct.Counting.C74_s1_row",
    "Altruct.Counting.C74_s1_column",
    "Altruct.Counting.C74_s2_column",
    "Altruct.Counting.C74_column_beyond",
    "Altruct.Counting.C74_s2_row",
    "Altruct.Counting.C74_s1",
    "Altruct.Counting.C74_s2",
    "Altruct.Counting.C74_s2_int"
   ],
   "note": "C74_column_beyond: the column functions are undefined for k >= 200 and k > n. stirling_s2 and the row functions need the small factorials to be invertible or the division to be exact."
  },
  {
   "property": "C75",
   "status": "proved",
   "theorems": [
    "Altruct.Counting.C75_euler_function",
    "Altruct.Counting.C75_euler_zero",
    "Altruct.Counting.C75_partitions_slow",
    "Altruct.Counting.C75_distinct_slow",
    "Altruct.Counting.C75_partitions",
    "Altruct.Counting.C75_partitions_distinct",
    "Altruct.Counting.C75_partitions_distinct_odd",
    "Altruct.Counting.C75_divides"
   ],
   "note": "n = 0 writes outside of an empty vector (C75_euler_zero). The series versions need division by one to be exact, which holds over the integers and fields (C75_divides)."
  },
  {
   "property": "C76",
   "status": "proved",
   "theorems": [
    "Altruct.Squares.C76_cornacchia",
    "Altruct.Squares.C76_prime",
    "Altruct.Squares.C76_table",
    "Altruct.Squares.C76_list_unique",
    "Altruct.Squares.C76_list_all",
    "Altruct.Squares.C76_count",
    "Altruct.Squares.C76_reps"
   ],
   "note": "Unbounded integers; std::unordered_map is a partial function and std::set its sorted list. The factorization must list distinct primes with their exponents (any order). The user table may be any table of correct decompositions. Primes below 2^(2^63), from the square root of base.h."
  },
  {
   "property": "C77",
   "status": "proved",
   "theorems": [
    "Altruct.CombPP.C77_table",
    "Altruct.CombPP.C77_skipped_slow",
    "Altruct.CombPP.C77_reduced_slow",
    "Altruct.CombPP.C77_binomial_slow",
    "Altruct.CombPP.C77_reduced_2",
    "Altruct.CombPP.C77_binomial_2",
    "Altruct.CombPP.C77_table_usable"
   ],
   "note": "Unbounded integers, natural-number arguments, p prime (any positive p for the skipped products), any e including 0. The version with the table up to p*e (factorial_mod_pp_skipped, *_reduced) is not part of this claim."
  },
  {
   "property": "C78",
   "status": "proved",
   "theorems": [
    "Altruct.Triples.C78_pythagorean",
    "Altruct.Triples.C78_fixed_leg"
   ],
   "note": "Unbounded integers, 1 <= c_max < 2^(2^63) (from the square root of base.h). The factorization must list the distinct primes of the leg with their exponents; the divisors must fit the type (leg^2 times each prime)."
  },
  {
   "property": "C79",
   "status": "proved",
   "theorems": [
    "Altruct.Triples.C79_generators",
    "Altruct.Triples.C79_generate",
    "Altruct.Triples.C79_degenerate_generator"
   ],
   "note": "Unbounded integers, isqrt exact (C01). For k = 0 and k = 1 the solutions with a zero leg, (0, 1, 1) and (0, 0, 1), are not listed. Generators are returned even when they exceed n (example). C79_degenerate_generator: with (0, 1, 1) as the only generator the loop never ends."
  },
  {
   "property": "C80",
   "status": "proved",
   "theorems": [
    "Altruct.Triples.C80_eisenstein120",
    "Altruct.Triples.C80_eisenstein60"
   ],
   "note": "Unbounded integers, c_max below the limit of the square root of base.h. eisenstein_triples60 also visits the equilateral triangles, which its documentation (0 < a < b < c) excludes; the theorem states it."
  },
  {
   "property": "C81",
   "status": "proved",
   "theorems": [
    "Altruct.Triples.C81_almost"
   ],
   "note": "Unbounded integers; every c_max, also negative."
  },
  {
   "property": "C82",
   "status": "proved",
   "theorems": [
    "Altruct.Random.C82_range",
    "Altruct.Random.C82_multiple",
    "Altruct.Random.C82_uniform_next",
    "Altruct.Random.C82_uniform",
    "Altruct.Random.C82_xorshift64",
    "Altruct.Random.C82_xorshift1024",
    "Altruct.Random.C82_seed",
    "Altruct.Random.C82_zero_seed"
   ],
   "note": "Unsigned words of any width. The conversions to double are not modelled; that the period of the generators is maximal is not proved (only that it is pure and avoids zero)."
  },
  {
   "property": "C83",
   "status": "proved",
   "theorems": [
    "Altruct.Vectors.C83_galois_field_2",
    "Altruct.Vectors.C83_div_mul"
   ],
   "note": "Words of any width."
  },
  {
   "property": "C84",
   "status": "proved",
   "theorems": [
    "Altruct.Vectors.C84_order2",
    "Altruct.Vectors.C84_order3",
    "Altruct.Vectors.C84_geometry2",
    "Altruct.Vectors.C84_payload2",
    "Altruct.Vectors.C84_mul_assign2",
    "Altruct.Vectors.C84_mul_assign2_alias",
    "Altruct.Vectors.C84_geometry3",
    "Altruct.Vectors.C84_cmp",
    "Altruct.Vectors.C84_op_vec",
    "Altruct.Vectors.C84_op_scal",
    "Altruct.Vectors.C84_op_scal_alias",
    "Altruct.Vectors.C84_abs2"
   ],
   "note": "Exact arithmetic. near, unit and abs1 (tolerances and square roots of floating-point coordinates) and element-wise division of vector2d/vector3d are not modelled. C84_mul_assign2_alias and C84_op_scal_alias: v *= v.x and v *= v[0] are wrong because the argument is a reference into the vector being changed."
  },
  {
   "property": "C85",
   "status": "proved",
   "theorems": [
    "Altruct.Pell.C85_pqa"
   ],
   "note": "Unbounded integers; D below 2^(2^63) (limit of the square root of base.h). Loops run on fuel; the theorems say that enough fuel exists and that more does not change the result."
  },
  {
   "property": "C86",
   "status": "proved",
   "theorems": [
    "Altruct.Pell.C86_pell1",
    "Altruct.Pell.C86_pell1_list",
    "Altruct.Pell.C86_pell1_unbounded"
   ],
   "note": "As C85. C86_pell1_unbounded: without a limit the listing never ends."
  },
  {
   "property": "C87",
   "status": "proved",
   "theorems": [
    "Altruct.Pell.C87_pellS"
   ],
   "note": "As C85; N = 1 and N = -1, which the documentation leaves to pell1, are included when D > 1."
  },
  {
   "property": "C88",
   "status": "proved",
   "theorems": [
    "Altruct.Pell.C88_pell_mz",
    "Altruct.Pell.C88_pell_mz_misses"
   ],
   "note": "As C85. That an empty answer means an empty class is proved, and true, only when x^2 - D y^2 = -1 has no solution: C88_pell_mz_misses is a class that is missed."
  },
  {
   "property": "C89",
   "status": "proved",
   "theorems": [
    "Altruct.Pell.C89_pell",
    "Altruct.Pell.C89_pell_misses"
   ],
   "note": "As C85. Completeness is proved, and true, only when x^2 - D y^2 = -1 has no solution: C89_pell_misses."
  },
  {
   "property": "C90",
   "status": "proved",
   "theorems": [
    "Altruct.Pell.C90_pell_list",
    "Altruct.Pell.C90_pell_list_stops_early"
   ],
   "note": "As C85, with at least one limit. The documentation says all solutions are listed; that is false even when pell(D, N, fN) finds every class: C90_pell_list_stops_early. Proved instead: what is listed for the classes whose representative has components >= 0."
  },
  {
   "property": "C91",
   "status": "proved",
   "theorems": [
    "Altruct.GraphAlg.C91_transitive_closure",
    "Altruct.GraphAlg.C91_transitive_reduction"
   ],
   "note": "Graphs are lists of adjacency lists with targets in range."
  },
  {
   "property": "C92",
   "status": "proved",
   "theorems": [
    "Altruct.GraphAlg.C92_floyd_warshall"
   ],
   "note": "inf must exceed the weight of every simple walk (InfOk) and inf + inf must not overflow: weights are unbounded integers in the model."
  },
  {
   "property": "C93",
   "status": "proved",
   "theorems": [
    "Altruct.GraphAlg.C93_dijkstra"
   ],
   "note": "Weights are unbounded integers; the set is a sorted list. Any fuel above the number of nodes gives the same result, which bounds the number of nodes taken from the queue."
  },
  {
   "property": "C94",
   "status": "partial",
   "theorems": [
    "Altruct.GraphAlg.C94_prim_partial",
    "Altruct.GraphAlg.C94_prim_not_a_tree"
   ],
   "note": "Proved: the function ends, and every reachable node gets an edge of the graph leading to it from a reachable node. That these edges form a (minimum) spanning tree is false: C94_prim_not_a_tree."
  },
  {
   "property": "C95",
   "status": "proved",
   "theorems": [
    "Altruct.GraphAlg.C95_iterative_dfs",
    "Altruct.GraphAlg.C95_dfs_nodes",
    "Altruct.GraphAlg.C95_dfs_all",
    "Altruct.GraphAlg.C95_parents"
   ],
   "note": "The visitor is any function with a state whose answers are given by a fixed function of parent and node; termination is part of the claim."
  },
  {
   "property": "C96",
   "status": "proved",
   "theorems": [
    "Altruct.GraphAlg.C96_in_degrees",
    "Altruct.GraphAlg.C96_topological_sort"
   ],
   "note": "Acyclicity is needed: an example shows a cyclic graph losing nodes."
  },
  {
   "property": "C97",
   "status": "proved",
   "theorems": [
    "Altruct.GraphAlg.C97_tarjan_scc"
   ],
   "note": "The header speaks of an acyclic graph; the claim is proved for every graph."
  },
  {
   "property": "C98",
   "status": "proved",
   "theorems": [
    "Altruct.GraphAlg.C98_sat2",
    "Altruct.GraphAlg.C98_sat2_clauses"
   ],
   "note": "Literals >= -1 and given values in -1, 0, 1 are preconditions of the header."
  },
  {
   "property": "C99",
   "status": "proved",
   "theorems": [
    "Altruct.GraphAlg.C99_lca",
    "Altruct.GraphAlg.C99_no_node",
    "Altruct.GraphAlg.C99_undirected",
    "Altruct.GraphAlg.C99_forest"
   ],
   "note": "The levels are ints: fewer than 2^31-1 nodes.  The forest of a directed graph depends on the order of the nodes; for undirected graphs the answers are stated in terms of the graph alone."
  },
  {
   "property": "C100",
   "status": "proved",
   "theorems": [
    "Altruct.GraphAlg.C100_max_flow",
    "Altruct.GraphAlg.C100_same_node"
   ],
   "note": "Integer capacities, unbounded; no capacity exceeds infinity.  visited is not cleared within a phase, so a phase finds one path: the result is the maximum all the same."
  },
  {
   "property": "C101",
   "status": "proved",
   "theorems": [
    "Altruct.GraphAlg.C101_bipartite_matching",
    "Altruct.GraphAlg.C101_repeated_edge"
   ],
   "note": "Distinct edges between two disjoint sides are the precondition; C101_repeated_edge shows why distinct."
  },
  {
   "property": "C102",
   "status": "proved",
   "theorems": [
    "Altruct.Tries.C102_count_matches",
    "Altruct.Tries.C102_insert",
    "Altruct.Tries.C102_empty_word",
    "Altruct.Tries.C102_insert_late"
   ],
   "note": "Non-empty words, all inserted before build; C102_empty_word and C102_insert_late show the other cases fail."
  },
  {
   "property": "C103",
   "status": "proved",
   "theorems": [
    "Altruct.Tries.C103_palindrome_tree"
   ],
   "note": "Unbounded numbers."
  },
  {
   "property": "C104",
   "status": "proved",
   "theorems": [
    "Altruct.Tries.C104_prefix_tree"
   ],
   "note": "Letters are given as ordinals below the alphabet size; clear(), copying and the destructor are not modelled."
  },
  {
   "property": "C105",
   "status": "proved",
   "theorems": [
    "Altruct.Rmq.C105_leftmost_minimum",
    "Altruct.Rmq.C105_size",
    "Altruct.Rmq.C105_unsigned_char"
   ],
   "note": "Block sizes up to 128 and a signed char; C105_unsigned_char shows the code fails where char is unsigned, C105_size that size() is rounded up."
  },
  {
   "property": "C106",
   "status": "proved",
   "theorems": [
    "Altruct.SuffixArray.C106_sorted_suffixes",
    "Altruct.SuffixArray.C106_longest_common_prefix",
    "Altruct.SuffixArray.C106_compare_substrings",
    "Altruct.SuffixArray.C106_reads_past_the_end",
    "Altruct.SuffixArray.C106_empty_string"
   ],
   "note": "Letters are natural numbers; the memory after the string is arbitrary but readable: C106_reads_past_the_end shows the read, C106_empty_string the precondition."
  },
  {
   "property": "C107",
   "status": "proved",
   "theorems": [
    "Altruct.Hungarian.C107_load",
    "Altruct.Hungarian.C107_maximum",
    "Altruct.Hungarian.C107_minimum",
    "Altruct.Hungarian.C107_match_vectors_padded",
    "Altruct.Hungarian.C107_resize_moves_costs"
   ],
   "note": "Costs are unbounded integers; C107_match_vectors_padded and C107_resize_moves_costs state two surprises of the interface."
  },
  {
   "property": "C108",
   "status": "proved",
   "theorems": [
    "Altruct.PushRelabel.C108_max_flow",
    "Altruct.PushRelabel.C108_same_node",
    "Altruct.PushRelabel.C108_infinity_too_small",
    "Altruct.PushRelabel.C108_unknown_rule"
   ],
   "note": "Capacities are unbounded integers; std::sort is any function that returns a permutation sorted by decreasing heights; C108_infinity_too_small and C108_unknown_rule show what happens outside the preconditions."
  },
  {
   "property": "C109",
   "status": "proved",
   "theorems": [
    "Altruct.Chain.C109_cut_edges",
    "Altruct.Chain.C109_chains",
    "Altruct.Chain.C109_parallel_edges"
   ],
   "note": "All undirected graphs. The order in which an unordered_set is iterated is not modelled. C109_parallel_edges: two edges between the same nodes count as one."
  },
  {
   "property": "C110",
   "status": "proved",
   "theorems": [
    "Altruct.Chain.C110_cut_vertices",
    "Altruct.Chain.C110_biconnectivity",
    "Altruct.Chain.C110_loop"
   ],
   "note": "All simple undirected graphs, any list of the bridges. C110_loop: with a loop a leaf is reported."
  },
  {
   "property": "C111",
   "status": "proved",
   "theorems": [
    "Altruct.Mertens.C111_mertens_pi",
    "Altruct.Mertens.C111_mertens_odd_pi",
    "Altruct.Mertens.C111_mertens_even_pi",
    "Altruct.Mertens.C111_sieve",
    "Altruct.Mertens.C111_sieve_odd",
    "Altruct.Mertens.C111_sieve_even",
    "Altruct.Mertens.C111_sieve_even_odd",
    "Altruct.Mertens.C111_first",
    "Altruct.Mertens.C111_mertens",
    "Altruct.Mertens.C111_mertens_odd",
    "Altruct.Mertens.C111_mertens_even",
    "Altruct.Mertens.C111_even_overflow"
   ],
   "note": "The functions with a table of known values and all sieves. The versions that take a table of prime counts hold for 9 <= n < 2^62 (see C113 for smaller n). C111_even_overflow: at n = 2^31 mertens_even is one too large, because its lambda takes an int. C111_first: the table must start with zero."
  },
  {
   "property": "C112",
   "status": "proved",
   "theorems": [
    "Altruct.SumMult.C112_sum_multiplicative_34",
    "Altruct.SumMult.C112_zero",
    "Altruct.SumMult.C112_missing_prime"
   ],
   "note": "All n >= 1, all commutative rings, the map of sums built by make_sqrt_map. The integer square root is a parameter with its specification (C01). C112_zero: n = 0 divides by zero in the constructor of the map."
  },
  {
   "property": "C113",
   "status": "proved",
   "theorems": [
    "Altruct.SumMult.C113_sum_multiplicative",
    "Altruct.SumMult.C113_one",
    "Altruct.SumMult.C113_before_table",
    "Altruct.SumMult.C113_long_table",
    "Altruct.SumMult.C113_traverse"
   ],
   "note": "All 9 <= n < 2^62 (the index arithmetic of the Fenwick tree is 64-bit), all commutative rings, all tables of the primes up to a bound between n^(1/2) and n / n^(1/3). C113_before_table: for 2 <= n <= 7 the element before the table is read, whatever the arguments. C113_long_table: a table that reaches beyond n / n^(1/3) does the same. isqrt and icbrt are parameters with their specification (C01)."
  },
  {
   "property": "C114",
   "status": "proved",
   "theorems": [
    "Altruct.PrimePi.C114_prime_pi",
    "Altruct.PrimePi.C114_history",
    "Altruct.PrimePi.C114_start",
    "Altruct.PrimePi.C114_past_end",
    "Altruct.PrimePi.C114_key_overflow"
   ],
   "note": "int64_t with m < 2^47 and tables that reach far enough (spelled out in Enough). C114_history: any sequence of calls that share the static tables. C114_past_end: with the primes up to the square root, as documented, prime_pi_P2 reads past the end of the table. C114_key_overflow: the key overflows from 2^47, not 2^48."
  },
  {
   "property": "C115",
   "status": "proved",
   "theorems": [
    "Altruct.SumPhi.C115_sum_phi",
    "Altruct.SumPhi.C115_zero"
   ],
   "note": "sum_m on a sqrt_map and sum_phi; integer roots are parameters with their contract"
  },
  {
   "property": "C116",
   "status": "proved",
   "theorems": [
    "Altruct.SumPhi.C116_sum_g_L",
    "Altruct.SumPhi.C116_sum_phi_D_L",
    "Altruct.SumPhi.C116_single",
    "Altruct.SumPhi.C116_dimension",
    "Altruct.SumPhi.C116_empty"
   ],
   "note": "sum_g_L and sum_phi_D_L (both overloads) over a field; integer roots are parameters with their contract"
  },
  {
   "property": "C117",
   "status": "proved",
   "theorems": [
    "Altruct.Zeros.C117_in_interval",
    "Altruct.Zeros.C117_monotonic_search",
    "Altruct.Zeros.C117_zero",
    "Altruct.Zeros.C117_away_from_zero",
    "Altruct.Zeros.C117_stops_at_zero"
   ],
   "note": "Exact arithmetic in an ordered field: in the interval, close to a solution unless |p| <= epsy; the tolerance test ignores y (finding)."
  },
  {
   "property": "C118",
   "status": "proved",
   "theorems": [
    "Altruct.Zeros.C118_sound",
    "Altruct.Zeros.C118_complete",
    "Altruct.Zeros.C118_twice"
   ],
   "note": "Soundness and order for the function itself; completeness over the reals for any search that finds a zero of a monotonic function when there is one."
  },
  {
   "property": "C119",
   "status": "proved",
   "theorems": [
    "Altruct.Hld.C119_heavy_light",
    "Altruct.Hld.C119_log",
    "Altruct.Hld.C119_weights"
   ],
   "note": "The forest is given with its parents when each tree hangs from its least node (Hld/Spec.lean: Rooted)."
  },
  {
   "property": "C120",
   "status": "proved",
   "theorems": [
    "Altruct.Hld.C120_parent",
    "Altruct.Hld.C120_walk",
    "Altruct.Hld.C120_apart"
   ],
   "note": "The visitor is taken as the list of its calls; nodes in one tree. On top of C99 (lowest_common_ancestor) and C119."
  },
  {
   "property": "C121",
   "status": "proved",
   "theorems": [
    "Altruct.PolyMod.C121_crt",
    "Altruct.PolyMod.C121_fft",
    "Altruct.PolyMod.C121_fft_big",
    "Altruct.PolyMod.C121_mul_any",
    "Altruct.PolyMod.C121_mul",
    "Altruct.PolyMod.C121_exact_complex"
   ],
   "note": "The complex transforms in exact arithmetic: the floating-point error of complex<double> is not modelled (hypothesis Exact, met by the complex numbers). _mul_fft_crt, which uses integers only, without such a hypothesis."
  },
  {
   "property": "C122",
   "status": "proved",
   "theorems": [
    "Altruct.DoubleInt.C122_repr",
    "Altruct.DoubleInt.C122_of_int",
    "Altruct.DoubleInt.C122_adc",
    "Altruct.DoubleInt.C122_sbb",
    "Altruct.DoubleInt.C122_add",
    "Altruct.DoubleInt.C122_sub",
    "Altruct.DoubleInt.C122_neg",
    "Altruct.DoubleInt.C122_inc_dec",
    "Altruct.DoubleInt.C122_eq",
    "Altruct.DoubleInt.C122_unsigned",
    "Altruct.DoubleInt.C122_range",
    "Altruct.DoubleInt.C122_signed",
    "Altruct.DoubleInt.C122_negative",
    "Altruct.DoubleInt.C122_of_half",
    "Altruct.DoubleInt.C122_mul_full",
    "Altruct.DoubleInt.C122_mul",
    "Altruct.DoubleInt.C122_signed_arith",
    "Altruct.DoubleInt.C122_div_zero",
    "Altruct.DoubleInt.C122_post_inc",
    "Altruct.DoubleInt.C122_trunc",
    "Altruct.DoubleInt.C122_signed_overflow"
   ],
   "note": "Every depth of nesting; words of w >= 3 bits. The intrinsics are what the test structures do; signed wrap-around of prim_int::operator += is assumed (C122_signed_overflow shows it can leave the range). / and % always give 0 (C122_div_zero), postfix ++ does not change the object (C122_post_inc)."
  },
  {
   "property": "C123",
   "status": "proved",
   "theorems": [
    "Altruct.DoubleInt.C123_bitwise",
    "Altruct.DoubleInt.C123_not",
    "Altruct.DoubleInt.C123_shr",
    "Altruct.DoubleInt.C123_sar",
    "Altruct.DoubleInt.C123_lzc",
    "Altruct.DoubleInt.C123_to_uint64",
    "Altruct.DoubleInt.C123_hex"
   ],
   "note": "Right shifts for double_int<prim_int> only: deeper ones need operator <<=, which does not compile. to_string16 for words whose width is a multiple of 4 and at most 64."
  },
  {
   "property": "C124",
   "status": "proved",
   "theorems": [
    "Altruct.Holders.C124_factorial_holder",
    "Altruct.Holders.C124_empty",
    "Altruct.Holders.C124_characteristic"
   ],
   "note": "Over a field with decidable equality; indices as naturals (the code takes int / size_t)."
  },
  {
   "property": "C125",
   "status": "partial",
   "theorems": [
    "Altruct.Holders.C125_history_small",
    "Altruct.Holders.C125_history_partial",
    "Altruct.Holders.C125_copy_pi",
    "Altruct.Holders.C125_pi_two"
   ],
   "note": "Unconditional for 3 <= sz < 40 (C125_history_small). For larger sz (below 2^30) under the hypothesis that the estimate int(sz / (log(sz) - 1.1)) + 5 exceeds the number of primes below sz: missing is a proof of this analytic bound (and of its floating-point evaluation). Writing through the returned references is not modelled."
  },
  {
   "property": "C126",
   "status": "proved",
   "theorems": [
    "Altruct.RootWrapper.C126_get",
    "Altruct.RootWrapper.C126_mul",
    "Altruct.RootWrapper.C126_convolution",
    "Altruct.RootWrapper.C126_dangling",
    "Altruct.RootWrapper.C126_one"
   ],
   "note": "Exact arithmetic: cos and sin give the exact roots (rt, instantiated with the complex exponential). A resize to a greater size is taken to reallocate. C126_dangling and C126_one are findings."
  },
  {
   "property": "C127",
   "status": "proved",
   "theorems": [
    "Altruct.Tokenizer.C127_split",
    "Altruct.Tokenizer.C127_round_trip",
    "Altruct.Tokenizer.C127_total",
    "Altruct.Tokenizer.C127_total_delimited",
    "Altruct.Tokenizer.C127_unbox",
    "Altruct.Tokenizer.C127_failed",
    "Altruct.Tokenizer.C127_diverge",
    "Altruct.Tokenizer.C127_empty_fields"
   ],
   "note": "isspace is a parameter (any predicate). The stream has its fail bit clear at the start; reading ints (ints_delimited_space) is not modelled."
  },
  {
   "property": "C128",
   "status": "proved",
   "theorems": [
    "Altruct.Symbolic.C128_faithful",
    "Altruct.Symbolic.C128_numbers",
    "Altruct.Symbolic.C128_reads",
    "Altruct.Symbolic.C128_value",
    "Altruct.Symbolic.C128_names"
   ],
   "note": "Strings as lists of characters."
  },
  {
   "property": "C129",
   "status": "proved",
   "theorems": [
    "Altruct.Mersenne.C129_seed_one",
    "Altruct.Mersenne.C129_seed_array",
    "Altruct.Mersenne.C129_seed_array_empty",
    "Altruct.Mersenne.C129_determined",
    "Altruct.Mersenne.C129_never_stuck"
   ],
   "note": "The seeding from /dev/urandom or the clock is not modelled. That the period is maximal is not proved."
  },
  {
   "property": "C130",
   "status": "proved",
   "theorems": [
    "Altruct.Mersenne.C130_total",
    "Altruct.Mersenne.C130_save_load",
    "Altruct.Mersenne.C130_bounded",
    "Altruct.Mersenne.C130_uniform",
    "Altruct.Mersenne.C130_reals"
   ],
   "note": "Reals as exact rationals (the operations of these three functions are exact in double). rand(), randNorm and the versions scaled by n, which round, and the stream operators are not modelled. That randInt(n) ends is not claimed."
  },
  {
   "property": "C131",
   "status": "proved",
   "theorems": [
    "Altruct.Chain.C131_biconnected_components",
    "Altruct.Chain.C131_edges"
   ],
   "note": "chain_decomposition and biconnected_components, for all undirected graphs; three nodes pairwise biconnected are in one list; block_cut_tree is C132"
  },
  {
   "property": "C132",
   "status": "proved",
   "theorems": [
    "Altruct.Chain.C132_block_cut_tree",
    "Altruct.Chain.C132_biconnectivity"
   ],
   "note": "All simple undirected graphs, any list of the bridges; the data of the edges of the tree (default constructed in the code) is not modelled"
  },
  {
   "property": "C133",
   "status": "proved",
   "theorems": [
    "Altruct.Chromatic.C133_complete",
    "Altruct.Chromatic.C133_tree",
    "Altruct.Chromatic.C133_cycle"
   ],
   "note": "Coefficients are integers without overflow, id = 1. Colourings are those of Mathlib (SimpleGraph.Coloring). chromatic_polynomial for any graph (lines 48-111) is not modelled."
  },
  {
   "property": "C134",
   "status": "proved",
   "theorems": [
    "Altruct.Output.C134_container",
    "Altruct.Output.C134_injective",
    "Altruct.Output.C134_strings",
    "Altruct.Output.C134_decimal",
    "Altruct.Output.C134_integers",
    "Altruct.Output.C134_fraction",
    "Altruct.Output.C134_modulo",
    "Altruct.Output.C134_as_pair"
   ],
   "note": "The printing of the elements is a parameter with the property Plain, shown for decimal notation of integers; the flags of the manipulators are parameters; the overloads for the other mathematical types (lines 186-301) are not modelled"
  }
 ]
}