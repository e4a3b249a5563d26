# Axioms of the theorems in MANIFEST.json

Output of `#print axioms`, with all of `Verif` imported. Only Lean's three standard axioms occur.

| property | theorem | axioms |
|---|---|---|
| C01 | `Altruct.Base.C01_isqrt_partial` | propext, Classical.choice, Quot.sound |
| C01 | `Altruct.Base.C01_isqrt_overflow` | propext, Classical.choice, Quot.sound |
| C01 | `Altruct.Base.C01_isqrt_negative_seed` | propext, Classical.choice, Quot.sound |
| C01 | `Altruct.Base.C01_isqrtc_partial` | propext, Classical.choice, Quot.sound |
| C01 | `Altruct.Base.C01_sqrtT` | propext, Classical.choice, Quot.sound |
| C01 | `Altruct.Base.C01_sqrtT_neg` | propext, Quot.sound |
| C01 | `Altruct.Base.C01_is_square` | propext, Classical.choice, Quot.sound |
| C02 | `Altruct.Base.C02_icbrt_partial` | propext, Classical.choice, Quot.sound |
| C02 | `Altruct.Base.C02_icbrt_overflow` | propext, Classical.choice, Quot.sound |
| C02 | `Altruct.Base.C02_icbrtc_partial` | propext, Classical.choice, Quot.sound |
| C02 | `Altruct.Base.C02_cbrtT` | propext, Classical.choice, Quot.sound |
| C02 | `Altruct.Base.C02_cbrtT_neg` | propext, Quot.sound |
| C02 | `Altruct.Base.C02_is_cube` | propext, Classical.choice, Quot.sound |
| C03 | `Altruct.Base.C03_gcd_dvd` | propext, Quot.sound |
| C03 | `Altruct.Base.C03_gcd_greatest` | propext, Quot.sound |
| C03 | `Altruct.Base.C03_gcd_nonneg` | propext, Quot.sound |
| C03 | `Altruct.Base.C03_gcd_sign_caveat` | propext, Quot.sound |
| C03 | `Altruct.Base.C03_gcd_ex_bezout` | propext, Quot.sound |
| C03 | `Altruct.Base.C03_gcd_ex_gcd` | propext, Quot.sound |
| C03 | `Altruct.Base.C03_gcd_ex_eq_gcd` | propext, Quot.sound |
| C03 | `Altruct.Base.C03_lcm` | propext, Classical.choice, Quot.sound |
| C03 | `Altruct.Base.C03_gcd_max` | propext, Classical.choice, Quot.sound |
| C04 | `Altruct.Base.C04_powT` | propext, Classical.choice, Quot.sound |
| C04 | `Altruct.Base.C04_powT_nonpos` | propext, Quot.sound |
| C05 | `Altruct.Base.C05_div_floor` | propext, Classical.choice, Quot.sound |
| C05 | `Altruct.Base.C05_div_ceil` | propext, Classical.choice, Quot.sound |
| C05 | `Altruct.Base.C05_div_round` | propext, Classical.choice, Quot.sound |
| C05 | `Altruct.Base.C05_multiple` | propext, Classical.choice, Quot.sound |
| C06 | `Altruct.Modulo.C06_add` | propext, Quot.sound |
| C06 | `Altruct.Modulo.C06_sub` | propext, Quot.sound |
| C06 | `Altruct.Modulo.C06_neg` | propext, Quot.sound |
| C06 | `Altruct.Modulo.C06_mul_long` | propext, Classical.choice, Quot.sound |
| C06 | `Altruct.Modulo.C06_mul` | propext, Classical.choice, Quot.sound |
| C06 | `Altruct.Modulo.C06_add_signed_partial` | propext, Classical.choice, Quot.sound |
| C06 | `Altruct.Modulo.C06_add_signed_overflow` | propext, Quot.sound |
| C06 | `Altruct.Modulo.C06_sub_signed_partial` | propext, Classical.choice, Quot.sound |
| C06 | `Altruct.Modulo.C06_neg_signed` | propext, Quot.sound |
| C06 | `Altruct.Modulo.C06_mul_signed` | propext, Classical.choice, Quot.sound |
| C07 | `Altruct.Modulo.C07_inv_signed` | propext, Classical.choice, Quot.sound |
| C07 | `Altruct.Modulo.C07_gcd_ex_signed` | propext, Classical.choice, Quot.sound |
| C07 | `Altruct.Modulo.C07_gcd_ex_unsigned` | propext, Classical.choice, Quot.sound |
| C07 | `Altruct.Modulo.C07_inv_unsigned` | propext, Classical.choice, Quot.sound |
| C07 | `Altruct.Modulo.C07_inv_unsigned_none` | propext, Classical.choice, Quot.sound |
| C07 | `Altruct.Modulo.C07_div_unsigned` | propext, Classical.choice, Quot.sound |
| C08 | `Altruct.Modulo.C08_modulo_power` | propext, Classical.choice, Quot.sound |
| C08 | `Altruct.Modulo.C08_ring` | propext, Classical.choice, Quot.sound |
| C08 | `Altruct.Modulo.C08_instance_unnormalised` | none |
| C09 | `Altruct.Modulo.C09_unsigned_partial` | propext, Classical.choice, Quot.sound |
| C09 | `Altruct.Modulo.C09_unsigned_wrap_bug` | propext, Quot.sound |
| C09 | `Altruct.Modulo.C09_signed` | propext, Classical.choice, Quot.sound |
| C10 | `Altruct.Modulo.C10_jacobi` | propext, Classical.choice, Quot.sound |
| C10 | `Altruct.Modulo.C10_legendre` | propext, Classical.choice, Quot.sound |
| C10 | `Altruct.Modulo.C10_negative_wrong` | propext, Classical.choice, Quot.sound |
| C11 | `Altruct.Primes.C11_primes` | propext, Classical.choice, Quot.sound |
| C11 | `Altruct.Primes.C11_primes_only_q` | propext, Classical.choice, Quot.sound |
| C11 | `Altruct.Primes.C11_primes_only_p` | propext, Classical.choice, Quot.sound |
| C11 | `Altruct.Primes.C11_terminator_out_of_bounds` | propext, Classical.choice, Quot.sound |
| C12 | `Altruct.Primes.C12_moebius_mu` | propext, Classical.choice, Quot.sound |
| C12 | `Altruct.Primes.C12_moebius_mu_zero` | propext, Quot.sound |
| C12 | `Altruct.Primes.C12_segmented_mu` | propext, Classical.choice, Quot.sound |
| C12 | `Altruct.Primes.C12_segmented_q` | propext, Classical.choice, Quot.sound |
| C12 | `Altruct.Primes.C12_segmented_q_short` | propext, Classical.choice, Quot.sound |
| C12 | `Altruct.Primes.C12_segmented_phi` | propext, Classical.choice, Quot.sound |
| C12 | `Altruct.Primes.C12_prime_pi` | propext, Classical.choice, Quot.sound |
| C12 | `Altruct.Primes.C12_prime_pi_small` | propext, Classical.choice, Quot.sound |
| C12 | `Altruct.Primes.C12_euler_phi` | propext, Classical.choice, Quot.sound |
| C12 | `Altruct.Primes.C12_prime_nu` | propext, Classical.choice, Quot.sound |
| C12 | `Altruct.Primes.C12_factor` | propext, Classical.choice, Quot.sound |
| C12 | `Altruct.Primes.C12_divisor_sigma0` | propext, Classical.choice, Quot.sound |
| C12 | `Altruct.Primes.C12_divisor_sigma1` | propext, Classical.choice, Quot.sound |
| C12 | `Altruct.Primes.C12_smallest_factor` | propext, Classical.choice, Quot.sound |
| C12 | `Altruct.Primes.C12_smallest_factor_zero` | propext, Quot.sound |
| C13 | `Altruct.Primes.C13_from_primes` | propext, Classical.choice, Quot.sound |
| C13 | `Altruct.Primes.C13_fraction_reduce` | propext, Classical.choice, Quot.sound |
| C13 | `Altruct.Primes.C13_factor_table` | propext, Classical.choice, Quot.sound |
| C13 | `Altruct.Primes.C13_factor_out` | propext, Classical.choice, Quot.sound |
| C13 | `Altruct.Primes.C13_factor_integer` | propext, Classical.choice, Quot.sound |
| C13 | `Altruct.Primes.C13_factor_integer_to_map` | propext, Classical.choice, Quot.sound |
| C13 | `Altruct.Primes.C13_factor_integer_product` | propext, Classical.choice, Quot.sound |
| C13 | `Altruct.Primes.C13_factor_integer_slow` | propext, Classical.choice, Quot.sound |
| C13 | `Altruct.Primes.C13_from_factorization` | propext, Classical.choice, Quot.sound |
| C14 | `Altruct.Primes.C14_divisors_unsorted` | propext, Classical.choice, Quot.sound |
| C14 | `Altruct.Primes.C14_divisors` | propext, Classical.choice, Quot.sound |
| C14 | `Altruct.Primes.C14_divisors_overflow` | propext, Classical.choice, Quot.sound |
| C14 | `Altruct.Primes.C14_squarefree_signed_divisors` | propext, Classical.choice, Quot.sound |
| C14 | `Altruct.Primes.C14_prime_factors` | propext, Classical.choice, Quot.sound |
| C14 | `Altruct.Primes.C14_prime_exponents` | propext, Classical.choice, Quot.sound |
| C14 | `Altruct.Primes.C14_sigma0` | propext, Classical.choice, Quot.sound |
| C14 | `Altruct.Primes.C14_euler_phi` | propext, Classical.choice, Quot.sound |
| C14 | `Altruct.Primes.C14_carmichael` | propext, Classical.choice, Quot.sound |
| C15 | `Altruct.Search.C15_kmp_search` | propext, Classical.choice, Quot.sound |
| C15 | `Altruct.Search.C15_kmp_search_all` | propext, Classical.choice, Quot.sound |
| C15 | `Altruct.Search.C15_empty_pattern` | propext, Quot.sound |
| C16 | `Altruct.Search.C16_binary_search_pred` | propext, Classical.choice, Quot.sound |
| C16 | `Altruct.Search.C16_binary_search_num` | propext, Classical.choice, Quot.sound |
| C16 | `Altruct.Search.C16_lower_bound_num` | propext, Classical.choice, Quot.sound |
| C16 | `Altruct.Search.C16_lower_bound_num_decreasing` | propext, Classical.choice, Quot.sound |
| C16 | `Altruct.Search.C16_upper_bound_num` | propext, Classical.choice, Quot.sound |
| C16 | `Altruct.Search.C16_upper_bound_num_decreasing` | propext, Classical.choice, Quot.sound |
| C17 | `Altruct.Dsu.C17_disjoint_set` | propext, Classical.choice, Quot.sound |
| C17 | `Altruct.Dsu.C17_find_stable` | propext, Classical.choice, Quot.sound |
| C18 | `Altruct.Fenwick.C18_fenwick` | propext, Classical.choice, Quot.sound |
| C19 | `Altruct.Heap.C19_binary_heap` | propext, Classical.choice, Quot.sound |
| C19 | `Altruct.Heap.C19_sort` | propext, Classical.choice, Quot.sound |
| C19 | `Altruct.Heap.C19_pop_all` | propext, Classical.choice, Quot.sound |
| C20 | `Altruct.SegTree.C20_segment_tree` | propext, Classical.choice, Quot.sound |
| C20 | `Altruct.SegTree.C20_segment_tree_sized` | propext, Classical.choice, Quot.sound |
| C21 | `Altruct.LazySeg.C21_lazy_segment_tree` | propext, Classical.choice, Quot.sound |
| C21 | `Altruct.LazySeg.C21_lazy_segment_tree_sized` | propext, Classical.choice, Quot.sound |
| C22 | `Altruct.BitVector.C22_reverse` | propext, Classical.choice, Quot.sound |
| C22 | `Altruct.BitVector.C22_swap` | propext, Classical.choice, Quot.sound |
| C22 | `Altruct.BitVector.C22_rotate` | propext, Classical.choice, Quot.sound |
| C22 | `Altruct.BitVector.C22_hamming_distance` | propext, Classical.choice, Quot.sound |
| C22 | `Altruct.BitVector.C22_compare` | propext, Classical.choice, Quot.sound |
| C22 | `Altruct.BitVector.C22_history` | propext, Classical.choice, Quot.sound |
| C22 | `Altruct.BitVector.C22_new` | propext, Quot.sound |
| C22 | `Altruct.BitVector.C22_resize` | propext, Classical.choice, Quot.sound |
| C22 | `Altruct.BitVector.C22_reserve` | propext, Classical.choice, Quot.sound |
| C22 | `Altruct.BitVector.C22_set` | propext, Classical.choice, Quot.sound |
| C22 | `Altruct.BitVector.C22_bit_at` | propext, Classical.choice, Quot.sound |
| C22 | `Altruct.BitVector.C22_proxy` | propext, Classical.choice, Quot.sound |
| C22 | `Altruct.BitVector.C22_push_back` | propext, Classical.choice, Quot.sound |
| C22 | `Altruct.BitVector.C22_pop_back` | propext, Classical.choice, Quot.sound |
| C22 | `Altruct.BitVector.C22_of_list` | propext, Classical.choice, Quot.sound |
| C22 | `Altruct.BitVector.C22_apply` | propext, Classical.choice, Quot.sound |
| C22 | `Altruct.BitVector.C22_apply2` | propext, Classical.choice, Quot.sound |
| C22 | `Altruct.BitVector.C22_not` | propext, Classical.choice, Quot.sound |
| C22 | `Altruct.BitVector.C22_logical` | propext, Classical.choice, Quot.sound |
| C22 | `Altruct.BitVector.C22_to_string` | propext, Classical.choice, Quot.sound |
| C22 | `Altruct.BitVector.C22_shift_right` | propext, Classical.choice, Quot.sound |
| C22 | `Altruct.BitVector.C22_shift_right_too_far` | propext, Quot.sound |
| C22 | `Altruct.BitVector.C22_shift_left_partial` | propext, Classical.choice, Quot.sound |
| C22 | `Altruct.BitVector.C22_shift_left_wrong` | propext, Quot.sound |
| C22 | `Altruct.BitVector.C22_shift_left_dirty` | propext, Classical.choice, Quot.sound |
| C22 | `Altruct.BitVector.C22_shift_left_too_far` | propext, Quot.sound |
| C23 | `Altruct.Bits.C23_hi_bit` | propext, Classical.choice, Quot.sound |
| C23 | `Altruct.Bits.C23_lo_bit` | propext, Classical.choice, Quot.sound |
| C23 | `Altruct.Bits.C23_is_pow2` | propext, Classical.choice, Quot.sound |
| C23 | `Altruct.Bits.C23_next_pow2` | propext, Classical.choice, Quot.sound |
| C23 | `Altruct.Bits.C23_gray_inverse` | propext, Classical.choice, Quot.sound |
| C23 | `Altruct.Bits.C23_gray_step` | propext, Classical.choice, Quot.sound |
| C23 | `Altruct.Bits.C23_sign_mag` | propext, Classical.choice, Quot.sound |
| C23 | `Altruct.Bits.C23_single_bits` | propext, Classical.choice, Quot.sound |
| C23 | `Altruct.Bits.C23_single_bits_range` | propext, Quot.sound |
| C23 | `Altruct.Bits.C23_or_down` | propext, Classical.choice, Quot.sound |
| C23 | `Altruct.Bits.C23_xor_down` | propext, Classical.choice, Quot.sound |
| C23 | `Altruct.Bits.C23_init` | propext, Classical.choice, Quot.sound |
| C23 | `Altruct.Bits.C23_ilog2` | propext, Classical.choice, Quot.sound |
| C23 | `Altruct.Bits.C23_ilog2_signed` | propext, Classical.choice, Quot.sound |
| C23 | `Altruct.Bits.C23_bit_cnt1` | propext, Classical.choice, Quot.sound |
| C23 | `Altruct.Bits.C23_bit_reverse` | propext, Classical.choice, Quot.sound |
| C23 | `Altruct.Bits.C23_lzc` | propext, Classical.choice, Quot.sound |
| C23 | `Altruct.Bits.C23_tzc` | propext, Classical.choice, Quot.sound |
| C23 | `Altruct.Bits.C23_next_combination` | propext, Classical.choice, Quot.sound |
| C23 | `Altruct.Bits.C23_next_combination_zero` | propext, Classical.choice, Quot.sound |
| C24 | `Altruct.BST.C24_run` | propext, Classical.choice, Quot.sound |
| C24 | `Altruct.BST.C24_iterate` | propext, Classical.choice, Quot.sound |
| C24 | `Altruct.BST.C24_step_iterator` | propext, Classical.choice, Quot.sound |
| C24 | `Altruct.BST.C24_sorted` | propext, Classical.choice, Quot.sound |
| C24 | `Altruct.BST.C24_size` | propext, Classical.choice, Quot.sound |
| C24 | `Altruct.BST.C24_find` | propext, Classical.choice, Quot.sound |
| C24 | `Altruct.BST.C24_count` | propext, Classical.choice, Quot.sound |
| C24 | `Altruct.BST.C24_kth` | propext, Classical.choice, Quot.sound |
| C24 | `Altruct.BST.C24_insert_result` | propext, Classical.choice, Quot.sound |
| C24 | `Altruct.BST.C24_erase_returns_parent` | none |
| C24 | `Altruct.BST.C24_erase_negative` | none |
| C25 | `Altruct.Treap.C25_run` | propext, Classical.choice, Quot.sound |
| C25 | `Altruct.Treap.C25_iterate` | propext, Classical.choice, Quot.sound |
| C25 | `Altruct.Treap.C25_same_as_tree` | propext, Classical.choice, Quot.sound |
| C25 | `Altruct.Treap.C25_step_iterator` | propext, Classical.choice, Quot.sound |
| C25 | `Altruct.Treap.C25_size` | propext, Classical.choice, Quot.sound |
| C25 | `Altruct.Treap.C25_find` | propext, Classical.choice, Quot.sound |
| C25 | `Altruct.Treap.C25_count` | propext, Classical.choice, Quot.sound |
| C25 | `Altruct.Treap.C25_kth` | propext, Classical.choice, Quot.sound |
| C25 | `Altruct.Treap.C25_heap` | propext, Classical.choice, Quot.sound |
| C25 | `Altruct.Treap.C25_reinsert` | none |
| C25 | `Altruct.Treap.C25_partial_erase` | none |
| C25 | `Altruct.Treap.C25_negative_random` | none |
| C26 | `Altruct.Rope.C26_run` | propext, Classical.choice, Quot.sound |
| C26 | `Altruct.Rope.C26_iterate` | propext, Classical.choice, Quot.sound |
| C26 | `Altruct.Rope.C26_size` | propext, Classical.choice, Quot.sound |
| C26 | `Altruct.Rope.C26_at` | propext, Classical.choice, Quot.sound |
| C26 | `Altruct.Rope.C26_iterator` | propext, Classical.choice, Quot.sound |
| C27 | `Altruct.Maps.C27_sqrt_map` | propext, Quot.sound |
| C27 | `Altruct.Maps.C27_stale` | propext |
| C27 | `Altruct.Maps.C27_lohi_map` | propext, Quot.sound |
| C27 | `Altruct.Maps.C27_lohi_at_absent` | propext |
| C28 | `Altruct.Parser.C28_parse_evaluate` | propext, Classical.choice, Quot.sound |
| C28 | `Altruct.Parser.C28_every_text` | propext, Classical.choice, Quot.sound |
| C28 | `Altruct.Parser.C28_basic_prefixTight` | propext, Quot.sound |
| C28 | `Altruct.Parser.C28_loose_prefix` | propext |
| C28 | `Altruct.Parser.C28_no_arguments` | propext |
| C29 | `Altruct.IO.C29_history` | propext, Classical.choice, Quot.sound |
| C29 | `Altruct.IO.C29_capacity_zero` | propext, Classical.choice, Quot.sound |
| C29 | `Altruct.IO.C29_string_writer` | propext, Classical.choice, Quot.sound |
| C30 | `Altruct.IO.C30_history` | propext, Classical.choice, Quot.sound |
| C30 | `Altruct.IO.C30_short_read` | none |
| C30 | `Altruct.IO.C30_skip_whitespaces` | propext, Classical.choice, Quot.sound |
| C30 | `Altruct.IO.C30_read_line` | propext, Classical.choice, Quot.sound |
| C30 | `Altruct.IO.C30_read_string` | propext, Classical.choice, Quot.sound |
| C31 | `Altruct.IO.C31_read_int` | propext, Classical.choice, Quot.sound |
| C31 | `Altruct.IO.C31_round_trip` | propext, Classical.choice, Quot.sound |
| C31 | `Altruct.IO.C31_least_value` | propext |
| C31 | `Altruct.IO.C31_byte_255` | propext |
| C31 | `Altruct.IO.C31_write_int` | propext, Classical.choice, Quot.sound |
| C32 | `Altruct.Hash.C32_add` | propext, Classical.choice, Quot.sound |
| C32 | `Altruct.Hash.C32_add_hash` | propext, Classical.choice, Quot.sound |
| C32 | `Altruct.Hash.C32_sub_shr` | propext, Classical.choice, Quot.sound |
| C32 | `Altruct.Hash.C32_shifts` | propext, Classical.choice, Quot.sound |
| C32 | `Altruct.Hash.C32_arith` | propext, Classical.choice, Quot.sound |
| C32 | `Altruct.Hash.C32_compare` | propext, Classical.choice, Quot.sound |
| C32 | `Altruct.Hash.C32_get` | propext, Classical.choice, Quot.sound |
| C32 | `Altruct.Hash.C32_position_independent` | propext, Classical.choice, Quot.sound |
| C32 | `Altruct.Hash.C32_tables_initial` | propext, Quot.sound |
| C32 | `Altruct.Hash.C32_negative_elements` | propext |
| C32 | `Altruct.Hash.C32_assign_twice` | propext |
| C32 | `Altruct.Hash.C32_modulus_too_large` | propext |
| C33 | `Altruct.Concurrency.C33_exactly_once` | propext, Classical.choice, Quot.sound |
| C33 | `Altruct.Concurrency.C33_deterministic` | propext, Classical.choice, Quot.sound |
| C33 | `Altruct.Concurrency.C33_terminates` | propext, Classical.choice, Quot.sound |
| C33 | `Altruct.Concurrency.C33_mutual_exclusion` | propext, Classical.choice, Quot.sound |
| C33 | `Altruct.Concurrency.C33_range_jobs` | propext, Classical.choice, Quot.sound |
| C33 | `Altruct.Concurrency.C33_range_sum` | propext, Classical.choice, Quot.sound |
| C34 | `Altruct.Collections.C34_take_filter_transform` | propext, Classical.choice, Quot.sound |
| C34 | `Altruct.Collections.C34_run_length` | propext, Classical.choice, Quot.sound |
| C34 | `Altruct.Collections.C34_run_length_unique` | propext, Classical.choice, Quot.sound |
| C34 | `Altruct.Collections.C34_compare` | propext, Classical.choice, Quot.sound |
| C34 | `Altruct.Collections.C34_compare_default` | propext, Classical.choice, Quot.sound |
| C35 | `Altruct.Collections.C35_sum_product` | propext |
| C35 | `Altruct.Collections.C35_min_max` | propext, Quot.sound |
| C35 | `Altruct.Collections.C35_min_default` | propext, Quot.sound |
| C35 | `Altruct.Collections.C35_max_default_wrong` | propext, Classical.choice, Quot.sound |
| C35 | `Altruct.Collections.C35_mex` | propext, Quot.sound |
| C35 | `Altruct.Collections.C35_mex_duplicates` | propext, Quot.sound |
| C36 | `Altruct.Fraction.C36_reduce` | propext, Classical.choice, Quot.sound |
| C36 | `Altruct.Fraction.C36_eq` | propext, Classical.choice, Quot.sound |
| C36 | `Altruct.Fraction.C36_compare` | propext, Classical.choice, Quot.sound |
| C36 | `Altruct.Fraction.C36_arith` | propext, Classical.choice, Quot.sound |
| C36 | `Altruct.Fraction.C36_assign` | propext, Quot.sound |
| C36 | `Altruct.Fraction.C36_expr` | propext, Classical.choice, Quot.sound |
| C36 | `Altruct.Fraction.C36_zero_denominator` | propext, Quot.sound |
| C37 | `Altruct.Polynom.C37_deg` | propext, Classical.choice, Quot.sound |
| C37 | `Altruct.Polynom.C37_add` | propext, Classical.choice, Quot.sound |
| C37 | `Altruct.Polynom.C37_mul_long` | propext, Classical.choice, Quot.sound |
| C37 | `Altruct.Polynom.C37_karatsuba` | propext, Classical.choice, Quot.sound |
| C37 | `Altruct.Polynom.C37_mul_raw` | propext, Classical.choice, Quot.sound |
| C37 | `Altruct.Polynom.C37_mul` | propext, Classical.choice, Quot.sound |
| C37 | `Altruct.Polynom.C37_times` | propext, Classical.choice, Quot.sound |
| C37 | `Altruct.Polynom.C37_mul_scalar` | propext, Classical.choice, Quot.sound |
| C37 | `Altruct.Polynom.C37_mul_scalar_alias` | propext |
| C37 | `Altruct.Polynom.C37_eval` | propext, Classical.choice, Quot.sound |
| C37 | `Altruct.Polynom.C37_derivative` | propext, Classical.choice, Quot.sound |
| C37 | `Altruct.Polynom.C37_cmp_eq` | propext, Classical.choice, Quot.sound |
| C38 | `Altruct.Polynom.C38_div_scalar` | propext, Classical.choice, Quot.sound |
| C38 | `Altruct.Polynom.C38_inverse_ring` | propext, Classical.choice, Quot.sound |
| C38 | `Altruct.Polynom.C38_inverse` | propext, Classical.choice, Quot.sound |
| C38 | `Altruct.Polynom.C38_quot_rem_ring` | propext, Classical.choice, Quot.sound |
| C38 | `Altruct.Polynom.C38_quot_rem` | propext, Classical.choice, Quot.sound |
| C38 | `Altruct.Polynom.C38_div_mod_ring` | propext, Classical.choice, Quot.sound |
| C38 | `Altruct.Polynom.C38_div_mod` | propext, Classical.choice, Quot.sound |
| C38 | `Altruct.Polynom.C38_euclid` | propext, Classical.choice, Quot.sound |
| C38 | `Altruct.Polynom.C38_div_zero` | propext, Classical.choice, Quot.sound |
| C38 | `Altruct.Polynom.C38_integral` | propext, Classical.choice, Quot.sound |
| C39 | `Altruct.LinAlg.C39_add` | propext, Classical.choice, Quot.sound |
| C39 | `Altruct.LinAlg.C39_mul` | propext, Classical.choice, Quot.sound |
| C39 | `Altruct.LinAlg.C39_transpose` | propext, Classical.choice, Quot.sound |
| C39 | `Altruct.LinAlg.C39_det` | propext, Classical.choice, Quot.sound |
| C39 | `Altruct.LinAlg.C39_inverse` | propext, Classical.choice, Quot.sound |
| C39 | `Altruct.LinAlg.C39_rank` | propext, Classical.choice, Quot.sound |
| C39 | `Altruct.LinAlg.C39_rank_singular` | propext, Classical.choice, Quot.sound |
| C40 | `Altruct.Permutation.C40_spec_cycles` | propext, Classical.choice, Quot.sound |
| C40 | `Altruct.Permutation.C40_to_line` | propext, Classical.choice, Quot.sound |
| C40 | `Altruct.Permutation.C40_of_line` | propext, Classical.choice, Quot.sound |
| C40 | `Altruct.Permutation.C40_to_line_isLine` | propext, Classical.choice, Quot.sound |
| C40 | `Altruct.Permutation.C40_line_roundtrip` | propext, Classical.choice, Quot.sound |
| C40 | `Altruct.Permutation.C40_cycles_roundtrip` | propext, Classical.choice, Quot.sound |
| C40 | `Altruct.Permutation.C40_cycles_normalise` | propext, Classical.choice, Quot.sound |
| C40 | `Altruct.Permutation.C40_mul` | propext, Classical.choice, Quot.sound |
| C40 | `Altruct.Permutation.C40_mul_apply` | propext, Classical.choice, Quot.sound |
| C40 | `Altruct.Permutation.C40_inv` | propext, Classical.choice, Quot.sound |
| C40 | `Altruct.Permutation.C40_div` | propext, Classical.choice, Quot.sound |
| C40 | `Altruct.Permutation.C40_pow` | propext, Classical.choice, Quot.sound |
| C40 | `Altruct.Permutation.C40_of_transpositions` | propext, Classical.choice, Quot.sound |
| C40 | `Altruct.Permutation.C40_transpositions_roundtrip` | propext, Classical.choice, Quot.sound |
| C40 | `Altruct.Permutation.C40_size` | propext, Classical.choice, Quot.sound |
| C40 | `Altruct.Permutation.C40_transpositions_to_cycles` | propext, Classical.choice, Quot.sound |
| C40 | `Altruct.Permutation.C40_all_cycles` | propext, Classical.choice, Quot.sound |
| C40 | `Altruct.Permutation.C40_mul_order` | propext, Classical.choice, Quot.sound |
| C41 | `Altruct.Convolution.C41_slow` | propext, Classical.choice, Quot.sound |
| C41 | `Altruct.Convolution.C41_or` | propext, Classical.choice, Quot.sound |
| C41 | `Altruct.Convolution.C41_and` | propext, Classical.choice, Quot.sound |
| C41 | `Altruct.Convolution.C41_xor` | propext, Classical.choice, Quot.sound |
| C41 | `Altruct.Convolution.C41_max` | propext, Classical.choice, Quot.sound |
| C41 | `Altruct.Convolution.C41_subset_sum` | propext, Classical.choice, Quot.sound |
| C41 | `Altruct.Convolution.C41_subset_sum_inverse` | propext, Classical.choice, Quot.sound |
| C41 | `Altruct.Convolution.C41_slow_subset` | propext, Classical.choice, Quot.sound |
| C41 | `Altruct.Convolution.C41_subset_conv` | propext, Classical.choice, Quot.sound |
| C42 | `Altruct.Fft.C42_cyclic` | propext, Classical.choice, Quot.sound |
| C42 | `Altruct.Fft.C42_convolution` | propext, Classical.choice, Quot.sound |
| C42 | `Altruct.Fft.C42_cyclic_convolution` | propext, Classical.choice, Quot.sound |
| C42 | `Altruct.Fft.C42_fft` | propext, Classical.choice, Quot.sound |
| C42 | `Altruct.Fft.C42_fft_bad_size` | propext, Classical.choice, Quot.sound |
| C42 | `Altruct.Fft.C42_fft_rec` | propext, Classical.choice, Quot.sound |
| C42 | `Altruct.Fft.C42_fft_rec_principal` | propext, Classical.choice, Quot.sound |
| C43 | `Altruct.Sums.C43_sum_ratio` | propext, Classical.choice, Quot.sound |
| C43 | `Altruct.Sums.C43_sum` | propext, Classical.choice, Quot.sound |
| C43 | `Altruct.Sums.C43_sum_sqrt` | propext, Classical.choice, Quot.sound |
| C43 | `Altruct.Sums.C43_sum_sqrt2m` | propext, Classical.choice, Quot.sound |
| C43 | `Altruct.Sums.C43_sum_sqrt2m_f` | propext, Classical.choice, Quot.sound |
| C43 | `Altruct.Sums.C43_sum_sqrt2` | propext, Classical.choice, Quot.sound |
| C43 | `Altruct.Sums.C43_sum_sqrt_lib` | propext, Classical.choice, Quot.sound |
| C44 | `Altruct.Combinatorics.C44_next_combination` | propext, Classical.choice, Quot.sound |
| C44 | `Altruct.Combinatorics.C44_combinations_visited` | propext, Classical.choice, Quot.sound |
| C44 | `Altruct.Combinatorics.C44_next_partition` | propext, Classical.choice, Quot.sound |
| C44 | `Altruct.Combinatorics.C44_partitions_visited` | propext, Classical.choice, Quot.sound |
| C44 | `Altruct.Combinatorics.C44_nth_perm` | propext, Classical.choice, Quot.sound |
| C44 | `Altruct.Combinatorics.C44_nth_mod` | propext, Classical.choice, Quot.sound |
| C44 | `Altruct.Combinatorics.C44_nth_strictMono` | propext, Classical.choice, Quot.sound |
| C44 | `Altruct.Combinatorics.C44_nth_surjective` | propext, Classical.choice, Quot.sound |
| C45 | `Altruct.Convergents.C45_cf_value` | propext, Classical.choice, Quot.sound |
| C45 | `Altruct.Convergents.C45_cf_terms` | propext, Classical.choice, Quot.sound |
| C45 | `Altruct.Convergents.C45_convergent_value` | propext, Classical.choice, Quot.sound |
| C45 | `Altruct.Convergents.C45_det` | propext, Classical.choice, Quot.sound |
| C45 | `Altruct.Convergents.C45_semi` | propext, Classical.choice, Quot.sound |
| C45 | `Altruct.Convergents.C45_roundtrip` | propext, Classical.choice, Quot.sound |
| C46 | `Altruct.Alloc.C46_history` | propext, Classical.choice, Quot.sound |
| C46 | `Altruct.Alloc.C46_clear_live` | propext |
| C47 | `Altruct.LinkCut.C47_run` | propext, Classical.choice, Quot.sound |
| C47 | `Altruct.LinkCut.C47_traverse` | propext, Classical.choice, Quot.sound |
| C47 | `Altruct.LinkCut.C47_paths` | propext, Classical.choice, Quot.sound |
| C47 | `Altruct.LinkCut.C47_link_not_root` | none |
| C48 | `Altruct.Graph.C48_delete_edge` | propext, Classical.choice, Quot.sound |
| C48 | `Altruct.Graph.C48_delete_node` | propext, Classical.choice, Quot.sound |
| C48 | `Altruct.Graph.C48_add` | propext, Classical.choice, Quot.sound |
| C48 | `Altruct.Graph.C48_add_edge2` | propext, Classical.choice, Quot.sound |
| C48 | `Altruct.Graph.C48_contract` | propext, Classical.choice, Quot.sound |
| C49 | `Altruct.Recurrence.C49_coeff_to_poly` | propext, Classical.choice, Quot.sound |
| C49 | `Altruct.Recurrence.C49_poly_to_coeff` | propext, Classical.choice, Quot.sound |
| C49 | `Altruct.Recurrence.C49_round_trip` | propext, Quot.sound |
| C49 | `Altruct.Recurrence.C49_polymod_pow` | propext, Classical.choice, Quot.sound |
| C49 | `Altruct.Recurrence.C49_linear_recurrence` | propext, Classical.choice, Quot.sound |
| C49 | `Altruct.Recurrence.C49_exists_unique` | propext, Classical.choice, Quot.sound |
| C49 | `Altruct.Recurrence.C49_next` | propext, Classical.choice, Quot.sound |
| C49 | `Altruct.Recurrence.C49_fibonacci` | propext, Classical.choice, Quot.sound |
| C49 | `Altruct.Recurrence.C49_order_two` | propext, Classical.choice, Quot.sound |
| C49 | `Altruct.Recurrence.C49_lucas_l` | propext, Classical.choice, Quot.sound |
| C49 | `Altruct.Recurrence.C49_lucas_u` | propext, Classical.choice, Quot.sound |
| C49 | `Altruct.Recurrence.C49_lucas_v` | propext, Classical.choice, Quot.sound |
| C50 | `Altruct.Factorization.C50_miller_rabin_prime` | propext, Classical.choice, Quot.sound |
| C50 | `Altruct.Factorization.C50_miller_rabin_composite` | propext, Classical.choice, Quot.sound |
| C50 | `Altruct.Factorization.C50_miller_rabin_witness` | propext, Classical.choice, Quot.sound |
| C50 | `Altruct.Factorization.C50_miller_rabin_all_bases` | propext, Classical.choice, Quot.sound |
| C50 | `Altruct.Factorization.C50_miller_rabin_small` | propext, Classical.choice, Quot.sound |
| C50 | `Altruct.Factorization.C50_pollard_rho` | propext, Quot.sound |
| C50 | `Altruct.Factorization.C50_pollard_rho_repeated` | propext, Quot.sound |
| C50 | `Altruct.Factorization.C50_factor_integer` | propext, Classical.choice, Quot.sound |
| C50 | `Altruct.Factorization.C50_factorization` | propext, Classical.choice, Quot.sound |
| C51 | `Altruct.Digits.C51_integer_digits` | propext, Classical.choice, Quot.sound |
| C51 | `Altruct.Digits.C51_from_digits` | propext, Classical.choice, Quot.sound |
| C51 | `Altruct.Digits.C51_integer_round_trip` | propext, Classical.choice, Quot.sound |
| C51 | `Altruct.Digits.C51_digits_round_trip` | propext, Classical.choice, Quot.sound |
| C51 | `Altruct.Digits.C51_negative` | propext, Quot.sound |
| C51 | `Altruct.Digits.C51_integer_string` | propext, Classical.choice, Quot.sound |
| C51 | `Altruct.Digits.C51_string_out_of_range` | propext, Classical.choice, Quot.sound |
| C51 | `Altruct.Digits.C51_rational_digit` | propext, Classical.choice, Quot.sound |
| C51 | `Altruct.Digits.C51_rational_digits` | propext, Classical.choice, Quot.sound |
| C51 | `Altruct.Digits.C51_repeating_decimal` | propext, Classical.choice, Quot.sound |
| C51 | `Altruct.Digits.C51_overflow` | propext |
| C52 | `Altruct.Dirichlet.C52_calc_multiplicative` | propext, Classical.choice, Quot.sound |
| C52 | `Altruct.Dirichlet.C52_convolution_multiplicative` | propext, Classical.choice, Quot.sound |
| C52 | `Altruct.Dirichlet.C52_division_multiplicative` | propext, Classical.choice, Quot.sound |
| C52 | `Altruct.Dirichlet.C52_inverse_multiplicative` | propext, Classical.choice, Quot.sound |
| C52 | `Altruct.Dirichlet.C52_moebius_transform_multiplicative` | propext, Classical.choice, Quot.sound |
| C52 | `Altruct.Dirichlet.C52_calc_completely` | propext, Classical.choice, Quot.sound |
| C52 | `Altruct.Dirichlet.C52_convolution_completely` | propext, Classical.choice, Quot.sound |
| C52 | `Altruct.Dirichlet.C52_division_completely` | propext, Classical.choice, Quot.sound |
| C52 | `Altruct.Dirichlet.C52_inverse_completely` | propext, Classical.choice, Quot.sound |
| C52 | `Altruct.Dirichlet.C52_moebius_transform_completely` | propext, Classical.choice, Quot.sound |
| C52 | `Altruct.Dirichlet.C52_convolution` | propext, Classical.choice, Quot.sound |
| C52 | `Altruct.Dirichlet.C52_division` | propext, Classical.choice, Quot.sound |
| C52 | `Altruct.Dirichlet.C52_division_unique` | propext, Classical.choice, Quot.sound |
| C52 | `Altruct.Dirichlet.C52_inverse` | propext, Classical.choice, Quot.sound |
| C52 | `Altruct.Dirichlet.C52_moebius_transform` | propext, Classical.choice, Quot.sound |
| C52 | `Altruct.Dirichlet.C52_sieve_m` | propext, Classical.choice, Quot.sound |
| C52 | `Altruct.Dirichlet.C52_sieve_m1` | propext, Classical.choice, Quot.sound |
| C52 | `Altruct.Dirichlet.C52_sieve_m_multiplicative_inv` | propext, Classical.choice, Quot.sound |
| C52 | `Altruct.Dirichlet.C52_sieve_m_multiplicative` | propext, Classical.choice, Quot.sound |
| C53 | `Altruct.Convergents.C53_sqrt_convergent` | propext, Classical.choice, Quot.sound |
| C53 | `Altruct.Convergents.C53_sqrt_convergent_square` | propext |
| C53 | `Altruct.Convergents.C53_sqrt_convergent_lib` | propext, Classical.choice, Quot.sound |
| C54 | `Altruct.Recurrence.C54_berlekamp_massey_poly` | propext, Classical.choice, Quot.sound |
| C54 | `Altruct.Recurrence.C54_berlekamp_massey` | propext, Classical.choice, Quot.sound |
| C54 | `Altruct.Recurrence.C54_too_short` | propext, Classical.choice, Quot.sound |
| C55 | `Altruct.Recurrence.C55_bernoulli_recurrence` | propext, Classical.choice, Quot.sound |
| C55 | `Altruct.Recurrence.C55_bernoulli` | propext, Classical.choice, Quot.sound |
| C56 | `Altruct.Digits.C56_farey_right` | propext, Classical.choice, Quot.sound |
| C56 | `Altruct.Digits.C56_farey_left` | propext, Classical.choice, Quot.sound |
| C56 | `Altruct.Digits.C56_farey_start` | propext, Classical.choice, Quot.sound |
| C56 | `Altruct.Digits.C56_farey_negative` | propext, Quot.sound |
| C56 | `Altruct.Digits.C56_farey_walk` | propext, Classical.choice, Quot.sound |
| C57 | `Altruct.Dirichlet.C57_sum_m` | propext, Classical.choice, Quot.sound |
| C57 | `Altruct.Dirichlet.C57_sum_m1` | propext, Classical.choice, Quot.sound |
| C58 | `Altruct.Dirichlet.C58_sqfree_count` | propext, Classical.choice, Quot.sound |
| C58 | `Altruct.Dirichlet.C58_sieve_sqfree_count` | propext, Classical.choice, Quot.sound |
| C59 | `Altruct.Dirichlet.C59_coprime_sum` | propext, Classical.choice, Quot.sound |
| C59 | `Altruct.Dirichlet.C59_divisor_sigma` | propext, Classical.choice, Quot.sound |
| C60 | `Altruct.Series.C60_add` | propext, Classical.choice, Quot.sound |
| C60 | `Altruct.Series.C60_mul` | propext, Classical.choice, Quot.sound |
| C60 | `Altruct.Series.C60_mul_zero_precision` | propext |
| C60 | `Altruct.Series.C60_pointwise_mul` | propext, Classical.choice, Quot.sound |
| C60 | `Altruct.Series.C60_sub_mul` | propext, Classical.choice, Quot.sound |
| C60 | `Altruct.Series.C60_sub_pow` | propext, Classical.choice, Quot.sound |
| C60 | `Altruct.Series.C60_shift` | propext, Classical.choice, Quot.sound |
| C60 | `Altruct.Series.C60_shift_beyond` | propext, Quot.sound |
| C60 | `Altruct.Series.C60_make_ordinary` | propext, Classical.choice, Quot.sound |
| C60 | `Altruct.Series.C60_of` | propext, Classical.choice, Quot.sound |
| C60 | `Altruct.Series.C60_derivative` | propext, Classical.choice, Quot.sound |
| C60 | `Altruct.Series.C60_powT` | propext, Classical.choice, Quot.sound |
| C60 | `Altruct.Series.C60_composition` | propext, Classical.choice, Quot.sound |
| C60 | `Altruct.Series.C60_composition_zero_precision` | propext |
| C60 | `Altruct.Series.C60_inverse_ring` | propext, Classical.choice, Quot.sound |
| C60 | `Altruct.Series.C60_div_ring` | propext, Classical.choice, Quot.sound |
| C60 | `Altruct.Series.C60_div_scalar` | propext, Classical.choice, Quot.sound |
| C60 | `Altruct.Series.C60_integral` | propext, Classical.choice, Quot.sound |
| C60 | `Altruct.Series.C60_integral_char` | propext, Quot.sound |
| C60 | `Altruct.Series.C60_ln` | propext, Classical.choice, Quot.sound |
| C60 | `Altruct.Series.C60_exp` | propext, Classical.choice, Quot.sound |
| C60 | `Altruct.Series.C60_exp_ln` | propext, Classical.choice, Quot.sound |
| C60 | `Altruct.Series.C60_pow` | propext, Classical.choice, Quot.sound |
| C60 | `Altruct.Series.C60_pow_zero_series` | propext, Classical.choice, Quot.sound |
| C60 | `Altruct.Series.C60_pow_overflow` | propext, Classical.choice, Quot.sound |
| C60 | `Altruct.Series.C60_reversion` | propext, Classical.choice, Quot.sound |
| C60 | `Altruct.Series.C60_reversion_left` | propext, Classical.choice, Quot.sound |
| C60 | `Altruct.Series.C60_reversion_none` | propext, Quot.sound |
| C60 | `Altruct.Series.C60_make_exponential` | propext, Classical.choice, Quot.sound |
| C60 | `Altruct.Series.C60_egf_round_trip` | propext, Classical.choice, Quot.sound |
| C60 | `Altruct.Series.C60_exp_of` | propext, Classical.choice, Quot.sound |
| C60 | `Altruct.Series.C60_pointwise_div` | propext, Classical.choice, Quot.sound |
| C60 | `Altruct.Series.C60_find_root` | propext, Classical.choice, Quot.sound |
| C60 | `Altruct.Series.C60_find_root_sqrt` | propext, Classical.choice, Quot.sound |
| C61 | `Altruct.Ranges.C61_range` | propext, Classical.choice, Quot.sound |
| C61 | `Altruct.Ranges.C61_powers` | propext, Classical.choice, Quot.sound |
| C61 | `Altruct.Ranges.C61_factorials` | propext, Classical.choice, Quot.sound |
| C61 | `Altruct.Ranges.C61_power` | propext, Classical.choice, Quot.sound |
| C61 | `Altruct.Ranges.C61_negate` | propext |
| C61 | `Altruct.Ranges.C61_alternate` | propext, Classical.choice, Quot.sound |
| C61 | `Altruct.Ranges.C61_accumulate` | propext, Classical.choice, Quot.sound |
| C61 | `Altruct.Ranges.C61_differentiate` | propext, Classical.choice, Quot.sound |
| C61 | `Altruct.Ranges.C61_accumulate_differentiate` | propext, Classical.choice, Quot.sound |
| C61 | `Altruct.Ranges.C61_inv_factorials` | propext, Classical.choice, Quot.sound |
| C61 | `Altruct.Ranges.C61_inv_factorials_beyond` | propext, Classical.choice, Quot.sound |
| C61 | `Altruct.Ranges.C61_inverses` | propext, Classical.choice, Quot.sound |
| C61 | `Altruct.Ranges.C61_inverses_empty` | propext, Classical.choice, Quot.sound |
| C61 | `Altruct.Ranges.C61_invert` | propext, Classical.choice, Quot.sound |
| C61 | `Altruct.Ranges.C61_invert_field` | propext, Classical.choice, Quot.sound |
| C61 | `Altruct.Ranges.C61_invert_field_zero` | propext, Classical.choice, Quot.sound |
| C62 | `Altruct.NumTheory.C62_euler_phi` | propext, Classical.choice, Quot.sound |
| C62 | `Altruct.NumTheory.C62_divisor_sigma0` | propext, Classical.choice, Quot.sound |
| C62 | `Altruct.NumTheory.C62_carmichael_lambda` | propext, Classical.choice, Quot.sound |
| C62 | `Altruct.NumTheory.C62_prime_factors` | propext, Classical.choice, Quot.sound |
| C62 | `Altruct.NumTheory.C62_squarefree_signed_divisors` | propext, Classical.choice, Quot.sound |
| C62 | `Altruct.NumTheory.C62_multiplicative_order_g` | propext, Classical.choice, Quot.sound |
| C62 | `Altruct.NumTheory.C62_multiplicative_order` | propext, Classical.choice, Quot.sound |
| C62 | `Altruct.NumTheory.C62_primitive_root` | propext, Classical.choice, Quot.sound |
| C62 | `Altruct.NumTheory.C62_primitive_root_exists` | propext, Classical.choice, Quot.sound |
| C62 | `Altruct.NumTheory.C62_primitive_root_of_unity` | propext, Classical.choice, Quot.sound |
| C62 | `Altruct.NumTheory.C62_primitive_root_prim` | propext, Classical.choice, Quot.sound |
| C62 | `Altruct.NumTheory.C62_kth_roots_powers` | propext, Classical.choice, Quot.sound |
| C62 | `Altruct.NumTheory.C62_kth_roots_of_unity_powers` | propext, Classical.choice, Quot.sound |
| C62 | `Altruct.NumTheory.C62_kth_roots` | propext, Classical.choice, Quot.sound |
| C62 | `Altruct.NumTheory.C62_kth_roots_of_unity` | propext, Classical.choice, Quot.sound |
| C62 | `Altruct.NumTheory.C62_kth_roots_of_unity_not_all` | propext, Classical.choice, Quot.sound |
| C63 | `Altruct.NumTheory.C63_brute_force_g` | propext, Quot.sound |
| C63 | `Altruct.NumTheory.C63_baby_giant_g` | propext, Classical.choice, Quot.sound |
| C63 | `Altruct.NumTheory.C63_order_pp_g` | propext, Classical.choice, Quot.sound |
| C63 | `Altruct.NumTheory.C63_discrete_log_g` | propext, Classical.choice, Quot.sound |
| C63 | `Altruct.NumTheory.C63_brute_force` | propext, Classical.choice, Quot.sound |
| C63 | `Altruct.NumTheory.C63_baby_giant` | propext, Classical.choice, Quot.sound |
| C63 | `Altruct.NumTheory.C63_shanks` | propext, Classical.choice, Quot.sound |
| C63 | `Altruct.NumTheory.C63_oddp` | propext, Classical.choice, Quot.sound |
| C63 | `Altruct.NumTheory.C63_discrete_log` | propext, Classical.choice, Quot.sound |
| C63 | `Altruct.NumTheory.C63_order_pp_not_power` | propext, Quot.sound |
| C63 | `Altruct.NumTheory.C63_discrete_log_p2` | propext, Classical.choice, Quot.sound |
| C63 | `Altruct.NumTheory.C63_discrete_log_pp` | propext, Classical.choice, Quot.sound |
| C64 | `Altruct.NumTheory.C64_sqrt_cipolla` | propext, Classical.choice, Quot.sound |
| C64 | `Altruct.NumTheory.C64_sqrt_cipolla_ends` | propext, Classical.choice, Quot.sound |
| C64 | `Altruct.NumTheory.C64_sqrt_hensel_lift` | propext, Classical.choice, Quot.sound |
| C64 | `Altruct.NumTheory.C64_sqrt_hensel_lift_p2` | propext, Classical.choice, Quot.sound |
| C64 | `Altruct.NumTheory.C64_sqrt_p2_negative` | propext |
| C64 | `Altruct.NumTheory.C64_sqrt_mod` | propext, Classical.choice, Quot.sound |
| C65 | `Altruct.NumTheory.C65_garner` | propext, Classical.choice, Quot.sound |
| C65 | `Altruct.NumTheory.C65_garner_decreasing` | propext, Quot.sound |
| C66 | `Altruct.Quadratic.C66_ring` | propext, Classical.choice, Quot.sound |
| C66 | `Altruct.Quadratic.C66_conjugate` | propext, Classical.choice, Quot.sound |
| C66 | `Altruct.Quadratic.C66_pow` | propext, Classical.choice, Quot.sound |
| C66 | `Altruct.Quadratic.C66_norm_mul` | propext, Quot.sound |
| C66 | `Altruct.Quadratic.C66_div` | propext, Classical.choice, Quot.sound |
| C66 | `Altruct.Quadratic.C66_norm_ne_zero` | propext, Classical.choice, Quot.sound |
| C66 | `Altruct.Quadratic.C66_gaussian_gcd_diverges` | propext |
| C66 | `Altruct.Quadratic.C66_mod_int` | propext |
| C66 | `Altruct.Quadratic.C66_div_exact` | propext, Classical.choice, Quot.sound |
| C66 | `Altruct.Quadratic.C66_order` | propext |
| C67 | `Altruct.Nimber.C67_nim_product` | propext, Classical.choice, Quot.sound |
| C67 | `Altruct.Nimber.C67_laws` | propext, Classical.choice, Quot.sound |
| C67 | `Altruct.Nimber.C67_closed` | propext, Classical.choice, Quot.sound |
| C67 | `Altruct.Nimber.C67_mul` | propext, Classical.choice, Quot.sound |
| C67 | `Altruct.Nimber.C67_mul2` | propext, Classical.choice, Quot.sound |
| C67 | `Altruct.Nimber.C67_sqrt` | propext, Classical.choice, Quot.sound |
| C67 | `Altruct.Nimber.C67_lift` | propext, Classical.choice, Quot.sound |
| C67 | `Altruct.Nimber.C67_inverse` | propext, Classical.choice, Quot.sound |
| C67 | `Altruct.Nimber.C67_div` | propext, Classical.choice, Quot.sound |
| C67 | `Altruct.Nimber.C67_history` | propext, Classical.choice, Quot.sound |
| C68 | `Altruct.Moebius.C68_add` | propext, Classical.choice, Quot.sound |
| C68 | `Altruct.Moebius.C68_sub` | propext, Classical.choice, Quot.sound |
| C68 | `Altruct.Moebius.C68_mul_inf` | propext, Classical.choice, Quot.sound |
| C68 | `Altruct.Moebius.C68_div_inf` | propext, Classical.choice, Quot.sound |
| C68 | `Altruct.Moebius.C68_neg_infinity` | propext, Quot.sound |
| C68 | `Altruct.Moebius.C68_infinities_differ` | propext, Classical.choice, Quot.sound |
| C68 | `Altruct.Moebius.C68_eval` | propext, Classical.choice, Quot.sound |
| C68 | `Altruct.Moebius.C68_compose` | propext, Classical.choice, Quot.sound |
| C68 | `Altruct.Moebius.C68_inverse` | propext, Classical.choice, Quot.sound |
| C68 | `Altruct.Moebius.C68_quotient` | propext, Classical.choice, Quot.sound |
| C68 | `Altruct.Moebius.C68_normalize` | propext, Classical.choice, Quot.sound |
| C68 | `Altruct.Moebius.C68_normalize_canonical` | propext, Classical.choice, Quot.sound |
| C68 | `Altruct.Moebius.C68_generators` | propext, Classical.choice, Quot.sound |
| C69 | `Altruct.Clifford.C69_ring` | propext, Quot.sound |
| C69 | `Altruct.Clifford.C69_generators` | propext, Quot.sound |
| C69 | `Altruct.Clifford.C69_basis` | propext |
| C69 | `Altruct.Clifford.C69_universal` | propext, Quot.sound |
| C69 | `Altruct.Clifford.C69_mixed` | propext, Quot.sound |
| C69 | `Altruct.Clifford.C69_reverse` | propext, Quot.sound |
| C69 | `Altruct.Clifford.C69_reflect` | propext, Quot.sound |
| C69 | `Altruct.Clifford.C69_rotate` | propext, Quot.sound |
| C69 | `Altruct.Clifford.C69_rotate_compose` | propext, Quot.sound |
| C69 | `Altruct.Clifford.C69_inverse` | propext, Classical.choice, Quot.sound |
| C69 | `Altruct.Clifford.C69_make_rotor` | propext, Classical.choice, Quot.sound |
| C69 | `Altruct.Clifford.C69_alias` | propext, Classical.choice, Quot.sound |
| C69 | `Altruct.Clifford.C69_clifford` | propext, Classical.choice, Quot.sound |
| C70 | `Altruct.Pga.C70_ring` | propext, Quot.sound |
| C70 | `Altruct.Pga.C70_generators` | propext, Quot.sound |
| C70 | `Altruct.Pga.C70_basis` | propext, Quot.sound |
| C70 | `Altruct.Pga.C70_bilinear` | propext, Quot.sound |
| C70 | `Altruct.Pga.C70_grades` | propext |
| C70 | `Altruct.Pga.C70_graded` | propext, Quot.sound |
| C70 | `Altruct.Pga.C70_join` | propext, Quot.sound |
| C70 | `Altruct.Pga.C70_reverse` | propext, Quot.sound |
| C70 | `Altruct.Pga.C70_point_on_plane` | propext, Quot.sound |
| C70 | `Altruct.Pga.C70_meet_planes` | propext, Quot.sound |
| C70 | `Altruct.Pga.C70_meet_line` | propext, Quot.sound |
| C70 | `Altruct.Pga.C70_join_points` | propext, Quot.sound |
| C70 | `Altruct.Pga.C70_join_line` | propext, Quot.sound |
| C70 | `Altruct.Pga.C70_reflect` | propext, Quot.sound |
| C70 | `Altruct.Pga.C70_compose` | propext, Quot.sound |
| C70 | `Altruct.Pga.C70_two_planes` | propext, Quot.sound |
| C70 | `Altruct.Pga.C70_rotate` | propext, Quot.sound |
| C70 | `Altruct.Pga.C70_translate` | propext, Classical.choice, Quot.sound |
| C70 | `Altruct.Pga.C70_rotor` | propext, Classical.choice, Quot.sound |
| C70 | `Altruct.Pga.C70_inverse` | propext, Classical.choice, Quot.sound |
| C70 | `Altruct.Pga.C70_inverse_line` | propext, Classical.choice, Quot.sound |
| C70 | `Altruct.Pga.C70_inverse_motor` | propext, Classical.choice, Quot.sound |
| C70 | `Altruct.Pga.C70_inverse_odd` | propext, Classical.choice, Quot.sound |
| C70 | `Altruct.Pga.C70_inverse_line_needs` | propext, Classical.choice, Quot.sound |
| C70 | `Altruct.Pga.C70_sandwich_needs` | propext, Classical.choice, Quot.sound |
| C70 | `Altruct.Pga.C70_sandwich_even` | propext, Quot.sound |
| C70 | `Altruct.Pga.C70_sandwich_odd` | propext, Quot.sound |
| C70 | `Altruct.Pga.C70_clifford` | propext, Classical.choice, Quot.sound |
| C70 | `Altruct.Pga.C70_exterior` | propext, Classical.choice, Quot.sound |
| C70 | `Altruct.Pga.C70_product_universal` | propext, Quot.sound |
| C70 | `Altruct.Pga.C70_wedge_universal` | propext, Quot.sound |
| C71 | `Altruct.Sums.C71_sum_pow_small` | propext, Classical.choice, Quot.sound |
| C71 | `Altruct.Sums.C71_sum_pow_table` | propext, Classical.choice, Quot.sound |
| C71 | `Altruct.Sums.C71_sum_pow` | propext, Classical.choice, Quot.sound |
| C71 | `Altruct.Sums.C71_sum_pow_rat` | propext, Classical.choice, Quot.sound |
| C71 | `Altruct.Sums.C71_sum_pow_int` | propext, Classical.choice, Quot.sound |
| C71 | `Altruct.Sums.C71_sum_pow_int_needs` | propext |
| C71 | `Altruct.Sums.C71_sum_powx` | propext, Classical.choice, Quot.sound |
| C71 | `Altruct.Sums.C71_polynom_sum` | propext, Classical.choice, Quot.sound |
| C71 | `Altruct.Sums.C71_sequences` | propext, Classical.choice, Quot.sound |
| C71 | `Altruct.Sums.C71_polyhedral` | propext, Classical.choice, Quot.sound |
| C71 | `Altruct.Sums.C71_sum_sigma` | propext, Classical.choice, Quot.sound |
| C72 | `Altruct.PrimeCount.C72_prime_power_sum_sqrt` | propext, Classical.choice, Quot.sound |
| C72 | `Altruct.PrimeCount.C72_prime_power_sum_sqrt_int` | propext, Classical.choice, Quot.sound |
| C72 | `Altruct.PrimeCount.C72_prime_sum_pi` | propext, Classical.choice, Quot.sound |
| C72 | `Altruct.PrimeCount.C72_zero` | propext, Quot.sound |
| C72 | `Altruct.PrimeCount.C72_prime_pi13_sqrt` | propext, Classical.choice, Quot.sound |
| C72 | `Altruct.PrimeCount.C72_prime_pi13` | propext, Classical.choice, Quot.sound |
| C72 | `Altruct.PrimeCount.C72_sqrt_lib` | propext, Classical.choice, Quot.sound |
| C73 | `Altruct.Counting.C73_factorial_prime_exponent` | propext, Classical.choice, Quot.sound |
| C73 | `Altruct.Counting.C73_not_prime` | propext |
| C73 | `Altruct.Counting.C73_binomial_prime_exponent` | propext, Classical.choice, Quot.sound |
| C73 | `Altruct.Counting.C73_multinomial_prime_exponent` | propext, Classical.choice, Quot.sound |
| C73 | `Altruct.Counting.C73_multinomial` | propext, Classical.choice, Quot.sound |
| C73 | `Altruct.Counting.C73_multinomial_int` | propext, Classical.choice, Quot.sound |
| C73 | `Altruct.Counting.C73_elements_multinomial` | propext, Classical.choice, Quot.sound |
| C73 | `Altruct.Counting.C73_elements_multinomial_int` | propext, Classical.choice, Quot.sound |
| C73 | `Altruct.Counting.C73_elements_unsorted` | propext, Classical.choice, Quot.sound |
| C74 | `Altruct.Counting.C74_first_kind` | propext, Classical.choice, Quot.sound |
| C74 | `Altruct.Counting.C74_second_kind` | propext, Classical.choice, Quot.sound |
| C74 | `Altruct.Counting.C74_s1_all` | propext, Classical.choice, Quot.sound |
| C74 | `Altruct.Counting.C74_s2_all` | propext, Classical.choice, Quot.sound |
| C74 | `Altruct.Counting.C74_factorial` | propext, Quot.sound |
| C74 | `Altruct.Counting.C74_s1_row` | propext, Classical.choice, Quot.sound |
| C74 | `Altruct.Counting.C74_s1_column` | propext, Classical.choice, Quot.sound |
| C74 | `Altruct.Counting.C74_s2_column` | propext, Classical.choice, Quot.sound |
| C74 | `Altruct.Counting.C74_column_beyond` | propext, Classical.choice, Quot.sound |
| C74 | `Altruct.Counting.C74_s2_row` | propext, Classical.choice, Quot.sound |
| C74 | `Altruct.Counting.C74_s1` | propext, Classical.choice, Quot.sound |
| C74 | `Altruct.Counting.C74_s2` | propext, Classical.choice, Quot.sound |
| C74 | `Altruct.Counting.C74_s2_int` | propext, Classical.choice, Quot.sound |
| C75 | `Altruct.Counting.C75_euler_function` | propext, Classical.choice, Quot.sound |
| C75 | `Altruct.Counting.C75_euler_zero` | propext |
| C75 | `Altruct.Counting.C75_partitions_slow` | propext, Classical.choice, Quot.sound |
| C75 | `Altruct.Counting.C75_distinct_slow` | propext, Classical.choice, Quot.sound |
| C75 | `Altruct.Counting.C75_partitions` | propext, Classical.choice, Quot.sound |
| C75 | `Altruct.Counting.C75_partitions_distinct` | propext, Classical.choice, Quot.sound |
| C75 | `Altruct.Counting.C75_partitions_distinct_odd` | propext, Classical.choice, Quot.sound |
| C75 | `Altruct.Counting.C75_divides` | propext, Classical.choice, Quot.sound |
| C76 | `Altruct.Squares.C76_cornacchia` | propext, Classical.choice, Quot.sound |
| C76 | `Altruct.Squares.C76_prime` | propext, Classical.choice, Quot.sound |
| C76 | `Altruct.Squares.C76_table` | propext, Classical.choice, Quot.sound |
| C76 | `Altruct.Squares.C76_list_unique` | propext, Classical.choice, Quot.sound |
| C76 | `Altruct.Squares.C76_list_all` | propext, Classical.choice, Quot.sound |
| C76 | `Altruct.Squares.C76_count` | propext, Classical.choice, Quot.sound |
| C76 | `Altruct.Squares.C76_reps` | propext, Classical.choice, Quot.sound |
| C77 | `Altruct.CombPP.C77_table` | propext, Classical.choice, Quot.sound |
| C77 | `Altruct.CombPP.C77_skipped_slow` | propext, Classical.choice, Quot.sound |
| C77 | `Altruct.CombPP.C77_reduced_slow` | propext, Classical.choice, Quot.sound |
| C77 | `Altruct.CombPP.C77_binomial_slow` | propext, Classical.choice, Quot.sound |
| C77 | `Altruct.CombPP.C77_reduced_2` | propext, Classical.choice, Quot.sound |
| C77 | `Altruct.CombPP.C77_binomial_2` | propext, Classical.choice, Quot.sound |
| C77 | `Altruct.CombPP.C77_table_usable` | propext, Classical.choice, Quot.sound |
| C78 | `Altruct.Triples.C78_pythagorean` | propext, Classical.choice, Quot.sound |
| C78 | `Altruct.Triples.C78_fixed_leg` | propext, Classical.choice, Quot.sound |
| C79 | `Altruct.Triples.C79_generators` | propext, Classical.choice, Quot.sound |
| C79 | `Altruct.Triples.C79_generate` | propext, Classical.choice, Quot.sound |
| C79 | `Altruct.Triples.C79_degenerate_generator` | propext, Classical.choice, Quot.sound |
| C80 | `Altruct.Triples.C80_eisenstein120` | propext, Classical.choice, Quot.sound |
| C80 | `Altruct.Triples.C80_eisenstein60` | propext, Classical.choice, Quot.sound |
| C81 | `Altruct.Triples.C81_almost` | propext, Classical.choice, Quot.sound |
| C82 | `Altruct.Random.C82_range` | propext, Classical.choice, Quot.sound |
| C82 | `Altruct.Random.C82_multiple` | propext, Quot.sound |
| C82 | `Altruct.Random.C82_uniform_next` | propext, Classical.choice, Quot.sound |
| C82 | `Altruct.Random.C82_uniform` | propext, Classical.choice, Quot.sound |
| C82 | `Altruct.Random.C82_xorshift64` | propext, Classical.choice, Quot.sound |
| C82 | `Altruct.Random.C82_xorshift1024` | propext, Classical.choice, Quot.sound |
| C82 | `Altruct.Random.C82_seed` | propext, Classical.choice, Quot.sound |
| C82 | `Altruct.Random.C82_zero_seed` | propext, Quot.sound |
| C83 | `Altruct.Vectors.C83_galois_field_2` | propext, Classical.choice, Quot.sound |
| C83 | `Altruct.Vectors.C83_div_mul` | propext, Classical.choice, Quot.sound |
| C84 | `Altruct.Vectors.C84_order2` | propext, Classical.choice, Quot.sound |
| C84 | `Altruct.Vectors.C84_order3` | propext, Classical.choice, Quot.sound |
| C84 | `Altruct.Vectors.C84_geometry2` | propext, Quot.sound |
| C84 | `Altruct.Vectors.C84_payload2` | propext |
| C84 | `Altruct.Vectors.C84_mul_assign2` | none |
| C84 | `Altruct.Vectors.C84_mul_assign2_alias` | propext |
| C84 | `Altruct.Vectors.C84_geometry3` | propext, Quot.sound |
| C84 | `Altruct.Vectors.C84_cmp` | propext, Classical.choice, Quot.sound |
| C84 | `Altruct.Vectors.C84_op_vec` | propext, Quot.sound |
| C84 | `Altruct.Vectors.C84_op_scal` | propext, Quot.sound |
| C84 | `Altruct.Vectors.C84_op_scal_alias` | propext |
| C84 | `Altruct.Vectors.C84_abs2` | propext, Quot.sound |
| C85 | `Altruct.Pell.C85_pqa` | propext, Classical.choice, Quot.sound |
| C86 | `Altruct.Pell.C86_pell1` | propext, Classical.choice, Quot.sound |
| C86 | `Altruct.Pell.C86_pell1_list` | propext, Classical.choice, Quot.sound |
| C86 | `Altruct.Pell.C86_pell1_unbounded` | propext, Classical.choice, Quot.sound |
| C87 | `Altruct.Pell.C87_pellS` | propext, Classical.choice, Quot.sound |
| C88 | `Altruct.Pell.C88_pell_mz` | propext, Classical.choice, Quot.sound |
| C88 | `Altruct.Pell.C88_pell_mz_misses` | propext |
| C89 | `Altruct.Pell.C89_pell` | propext, Classical.choice, Quot.sound |
| C89 | `Altruct.Pell.C89_pell_misses` | propext, Quot.sound |
| C90 | `Altruct.Pell.C90_pell_list` | propext, Classical.choice, Quot.sound |
| C90 | `Altruct.Pell.C90_pell_list_stops_early` | propext |
| C91 | `Altruct.GraphAlg.C91_transitive_closure` | propext, Classical.choice, Quot.sound |
| C91 | `Altruct.GraphAlg.C91_transitive_reduction` | propext, Classical.choice, Quot.sound |
| C92 | `Altruct.GraphAlg.C92_floyd_warshall` | propext, Classical.choice, Quot.sound |
| C93 | `Altruct.GraphAlg.C93_dijkstra` | propext, Classical.choice, Quot.sound |
| C94 | `Altruct.GraphAlg.C94_prim_partial` | propext, Classical.choice, Quot.sound |
| C94 | `Altruct.GraphAlg.C94_prim_not_a_tree` | propext |
| C95 | `Altruct.GraphAlg.C95_iterative_dfs` | propext, Classical.choice, Quot.sound |
| C95 | `Altruct.GraphAlg.C95_dfs_nodes` | propext, Quot.sound |
| C95 | `Altruct.GraphAlg.C95_dfs_all` | propext, Classical.choice, Quot.sound |
| C95 | `Altruct.GraphAlg.C95_parents` | propext, Classical.choice, Quot.sound |
| C96 | `Altruct.GraphAlg.C96_in_degrees` | propext, Quot.sound |
| C96 | `Altruct.GraphAlg.C96_topological_sort` | propext, Classical.choice, Quot.sound |
| C97 | `Altruct.GraphAlg.C97_tarjan_scc` | propext, Classical.choice, Quot.sound |
| C98 | `Altruct.GraphAlg.C98_sat2` | propext, Classical.choice, Quot.sound |
| C98 | `Altruct.GraphAlg.C98_sat2_clauses` | propext, Classical.choice, Quot.sound |
| C99 | `Altruct.GraphAlg.C99_lca` | propext, Classical.choice, Quot.sound |
| C99 | `Altruct.GraphAlg.C99_no_node` | propext, Quot.sound |
| C99 | `Altruct.GraphAlg.C99_undirected` | propext, Classical.choice, Quot.sound |
| C99 | `Altruct.GraphAlg.C99_forest` | propext, Classical.choice, Quot.sound |
| C100 | `Altruct.GraphAlg.C100_max_flow` | propext, Classical.choice, Quot.sound |
| C100 | `Altruct.GraphAlg.C100_same_node` | propext, Classical.choice, Quot.sound |
| C101 | `Altruct.GraphAlg.C101_bipartite_matching` | propext, Classical.choice, Quot.sound |
| C101 | `Altruct.GraphAlg.C101_repeated_edge` | propext |
| C102 | `Altruct.Tries.C102_count_matches` | propext, Classical.choice, Quot.sound |
| C102 | `Altruct.Tries.C102_insert` | propext, Classical.choice, Quot.sound |
| C102 | `Altruct.Tries.C102_empty_word` | propext, Classical.choice, Quot.sound |
| C102 | `Altruct.Tries.C102_insert_late` | propext |
| C103 | `Altruct.Tries.C103_palindrome_tree` | propext, Classical.choice, Quot.sound |
| C104 | `Altruct.Tries.C104_prefix_tree` | propext, Classical.choice, Quot.sound |
| C105 | `Altruct.Rmq.C105_leftmost_minimum` | propext, Classical.choice, Quot.sound |
| C105 | `Altruct.Rmq.C105_size` | propext, Quot.sound |
| C105 | `Altruct.Rmq.C105_unsigned_char` | propext, Quot.sound |
| C106 | `Altruct.SuffixArray.C106_sorted_suffixes` | propext, Classical.choice, Quot.sound |
| C106 | `Altruct.SuffixArray.C106_longest_common_prefix` | propext, Classical.choice, Quot.sound |
| C106 | `Altruct.SuffixArray.C106_compare_substrings` | propext, Classical.choice, Quot.sound |
| C106 | `Altruct.SuffixArray.C106_reads_past_the_end` | propext |
| C106 | `Altruct.SuffixArray.C106_empty_string` | propext |
| C107 | `Altruct.Hungarian.C107_load` | propext, Classical.choice, Quot.sound |
| C107 | `Altruct.Hungarian.C107_maximum` | propext, Classical.choice, Quot.sound |
| C107 | `Altruct.Hungarian.C107_minimum` | propext, Classical.choice, Quot.sound |
| C107 | `Altruct.Hungarian.C107_match_vectors_padded` | propext |
| C107 | `Altruct.Hungarian.C107_resize_moves_costs` | propext |
| C108 | `Altruct.PushRelabel.C108_max_flow` | propext, Classical.choice, Quot.sound |
| C108 | `Altruct.PushRelabel.C108_same_node` | propext, Classical.choice, Quot.sound |
| C108 | `Altruct.PushRelabel.C108_infinity_too_small` | propext |
| C108 | `Altruct.PushRelabel.C108_unknown_rule` | propext |
| C109 | `Altruct.Chain.C109_cut_edges` | propext, Classical.choice, Quot.sound |
| C109 | `Altruct.Chain.C109_chains` | propext, Classical.choice, Quot.sound |
| C109 | `Altruct.Chain.C109_parallel_edges` | propext, Quot.sound |
| C110 | `Altruct.Chain.C110_cut_vertices` | propext, Classical.choice, Quot.sound |
| C110 | `Altruct.Chain.C110_biconnectivity` | propext, Classical.choice, Quot.sound |
| C110 | `Altruct.Chain.C110_loop` | propext, Classical.choice, Quot.sound |
| C111 | `Altruct.Mertens.C111_mertens_pi` | propext, Classical.choice, Quot.sound |
| C111 | `Altruct.Mertens.C111_mertens_odd_pi` | propext, Classical.choice, Quot.sound |
| C111 | `Altruct.Mertens.C111_mertens_even_pi` | propext, Classical.choice, Quot.sound |
| C111 | `Altruct.Mertens.C111_sieve` | propext, Classical.choice, Quot.sound |
| C111 | `Altruct.Mertens.C111_sieve_odd` | propext, Classical.choice, Quot.sound |
| C111 | `Altruct.Mertens.C111_sieve_even` | propext, Classical.choice, Quot.sound |
| C111 | `Altruct.Mertens.C111_sieve_even_odd` | propext, Classical.choice, Quot.sound |
| C111 | `Altruct.Mertens.C111_first` | propext |
| C111 | `Altruct.Mertens.C111_mertens` | propext, Classical.choice, Quot.sound |
| C111 | `Altruct.Mertens.C111_mertens_odd` | propext, Classical.choice, Quot.sound |
| C111 | `Altruct.Mertens.C111_mertens_even` | propext, Classical.choice, Quot.sound |
| C111 | `Altruct.Mertens.C111_even_overflow` | propext, Classical.choice, Quot.sound |
| C112 | `Altruct.SumMult.C112_sum_multiplicative_34` | propext, Classical.choice, Quot.sound |
| C112 | `Altruct.SumMult.C112_zero` | propext |
| C112 | `Altruct.SumMult.C112_missing_prime` | propext |
| C113 | `Altruct.SumMult.C113_sum_multiplicative` | propext, Classical.choice, Quot.sound |
| C113 | `Altruct.SumMult.C113_one` | propext, Classical.choice, Quot.sound |
| C113 | `Altruct.SumMult.C113_before_table` | propext, Quot.sound |
| C113 | `Altruct.SumMult.C113_long_table` | propext |
| C113 | `Altruct.SumMult.C113_traverse` | propext, Classical.choice, Quot.sound |
| C114 | `Altruct.PrimePi.C114_prime_pi` | propext, Classical.choice, Quot.sound |
| C114 | `Altruct.PrimePi.C114_history` | propext, Classical.choice, Quot.sound |
| C114 | `Altruct.PrimePi.C114_start` | propext, Classical.choice, Quot.sound |
| C114 | `Altruct.PrimePi.C114_past_end` | propext |
| C114 | `Altruct.PrimePi.C114_key_overflow` | propext, Quot.sound |
| C115 | `Altruct.SumPhi.C115_sum_phi` | propext, Classical.choice, Quot.sound |
| C115 | `Altruct.SumPhi.C115_zero` | propext, Quot.sound |
| C116 | `Altruct.SumPhi.C116_sum_g_L` | propext, Classical.choice, Quot.sound |
| C116 | `Altruct.SumPhi.C116_sum_phi_D_L` | propext, Classical.choice, Quot.sound |
| C116 | `Altruct.SumPhi.C116_single` | propext, Classical.choice, Quot.sound |
| C116 | `Altruct.SumPhi.C116_dimension` | propext, Classical.choice, Quot.sound |
| C116 | `Altruct.SumPhi.C116_empty` | propext, Quot.sound |
| C117 | `Altruct.Zeros.C117_in_interval` | propext, Classical.choice, Quot.sound |
| C117 | `Altruct.Zeros.C117_monotonic_search` | propext, Classical.choice, Quot.sound |
| C117 | `Altruct.Zeros.C117_zero` | propext, Classical.choice, Quot.sound |
| C117 | `Altruct.Zeros.C117_away_from_zero` | propext, Classical.choice, Quot.sound |
| C117 | `Altruct.Zeros.C117_stops_at_zero` | propext, Classical.choice, Quot.sound |
| C118 | `Altruct.Zeros.C118_sound` | propext, Classical.choice, Quot.sound |
| C118 | `Altruct.Zeros.C118_complete` | propext, Classical.choice, Quot.sound |
| C118 | `Altruct.Zeros.C118_twice` | propext, Classical.choice, Quot.sound |
| C119 | `Altruct.Hld.C119_heavy_light` | propext, Classical.choice, Quot.sound |
| C119 | `Altruct.Hld.C119_log` | propext, Classical.choice, Quot.sound |
| C119 | `Altruct.Hld.C119_weights` | propext, Classical.choice, Quot.sound |
| C120 | `Altruct.Hld.C120_parent` | propext, Classical.choice, Quot.sound |
| C120 | `Altruct.Hld.C120_walk` | propext, Classical.choice, Quot.sound |
| C120 | `Altruct.Hld.C120_apart` | propext, Quot.sound |
| C121 | `Altruct.PolyMod.C121_crt` | propext, Classical.choice, Quot.sound |
| C121 | `Altruct.PolyMod.C121_fft` | propext, Classical.choice, Quot.sound |
| C121 | `Altruct.PolyMod.C121_fft_big` | propext, Classical.choice, Quot.sound |
| C121 | `Altruct.PolyMod.C121_mul_any` | propext, Classical.choice, Quot.sound |
| C121 | `Altruct.PolyMod.C121_mul` | propext, Classical.choice, Quot.sound |
| C121 | `Altruct.PolyMod.C121_exact_complex` | propext, Classical.choice, Quot.sound |
| C122 | `Altruct.DoubleInt.C122_repr` | propext, Classical.choice, Quot.sound |
| C122 | `Altruct.DoubleInt.C122_of_int` | propext, Classical.choice, Quot.sound |
| C122 | `Altruct.DoubleInt.C122_adc` | propext, Classical.choice, Quot.sound |
| C122 | `Altruct.DoubleInt.C122_sbb` | propext, Classical.choice, Quot.sound |
| C122 | `Altruct.DoubleInt.C122_add` | propext, Classical.choice, Quot.sound |
| C122 | `Altruct.DoubleInt.C122_sub` | propext, Classical.choice, Quot.sound |
| C122 | `Altruct.DoubleInt.C122_neg` | propext, Classical.choice, Quot.sound |
| C122 | `Altruct.DoubleInt.C122_inc_dec` | propext, Classical.choice, Quot.sound |
| C122 | `Altruct.DoubleInt.C122_eq` | propext, Quot.sound |
| C122 | `Altruct.DoubleInt.C122_unsigned` | propext, Classical.choice, Quot.sound |
| C122 | `Altruct.DoubleInt.C122_range` | propext, Quot.sound |
| C122 | `Altruct.DoubleInt.C122_signed` | propext, Classical.choice, Quot.sound |
| C122 | `Altruct.DoubleInt.C122_negative` | propext, Quot.sound |
| C122 | `Altruct.DoubleInt.C122_of_half` | propext, Classical.choice, Quot.sound |
| C122 | `Altruct.DoubleInt.C122_mul_full` | propext, Classical.choice, Quot.sound |
| C122 | `Altruct.DoubleInt.C122_mul` | propext, Classical.choice, Quot.sound |
| C122 | `Altruct.DoubleInt.C122_signed_arith` | propext, Classical.choice, Quot.sound |
| C122 | `Altruct.DoubleInt.C122_div_zero` | propext, Classical.choice, Quot.sound |
| C122 | `Altruct.DoubleInt.C122_post_inc` | propext, Classical.choice, Quot.sound |
| C122 | `Altruct.DoubleInt.C122_trunc` | propext |
| C122 | `Altruct.DoubleInt.C122_signed_overflow` | propext |
| C123 | `Altruct.DoubleInt.C123_bitwise` | propext, Quot.sound |
| C123 | `Altruct.DoubleInt.C123_not` | propext, Classical.choice, Quot.sound |
| C123 | `Altruct.DoubleInt.C123_shr` | propext, Classical.choice, Quot.sound |
| C123 | `Altruct.DoubleInt.C123_sar` | propext, Classical.choice, Quot.sound |
| C123 | `Altruct.DoubleInt.C123_lzc` | propext, Classical.choice, Quot.sound |
| C123 | `Altruct.DoubleInt.C123_to_uint64` | propext, Classical.choice, Quot.sound |
| C123 | `Altruct.DoubleInt.C123_hex` | propext, Classical.choice, Quot.sound |
| C124 | `Altruct.Holders.C124_factorial_holder` | propext, Classical.choice, Quot.sound |
| C124 | `Altruct.Holders.C124_empty` | propext, Classical.choice, Quot.sound |
| C124 | `Altruct.Holders.C124_characteristic` | propext, Classical.choice, Quot.sound |
| C125 | `Altruct.Holders.C125_history_small` | propext, Classical.choice, Quot.sound |
| C125 | `Altruct.Holders.C125_history_partial` | propext, Classical.choice, Quot.sound |
| C125 | `Altruct.Holders.C125_copy_pi` | propext, Quot.sound |
| C125 | `Altruct.Holders.C125_pi_two` | propext, Quot.sound |
| C126 | `Altruct.RootWrapper.C126_get` | propext, Classical.choice, Quot.sound |
| C126 | `Altruct.RootWrapper.C126_mul` | propext, Classical.choice, Quot.sound |
| C126 | `Altruct.RootWrapper.C126_convolution` | propext, Classical.choice, Quot.sound |
| C126 | `Altruct.RootWrapper.C126_dangling` | propext, Classical.choice, Quot.sound |
| C126 | `Altruct.RootWrapper.C126_one` | propext, Quot.sound |
| C127 | `Altruct.Tokenizer.C127_split` | propext, Classical.choice, Quot.sound |
| C127 | `Altruct.Tokenizer.C127_round_trip` | propext, Classical.choice, Quot.sound |
| C127 | `Altruct.Tokenizer.C127_total` | propext, Classical.choice, Quot.sound |
| C127 | `Altruct.Tokenizer.C127_total_delimited` | propext, Classical.choice, Quot.sound |
| C127 | `Altruct.Tokenizer.C127_unbox` | propext |
| C127 | `Altruct.Tokenizer.C127_failed` | propext, Quot.sound |
| C127 | `Altruct.Tokenizer.C127_diverge` | propext, Quot.sound |
| C127 | `Altruct.Tokenizer.C127_empty_fields` | propext, Classical.choice, Quot.sound |
| C128 | `Altruct.Symbolic.C128_faithful` | propext, Classical.choice, Quot.sound |
| C128 | `Altruct.Symbolic.C128_numbers` | propext, Classical.choice, Quot.sound |
| C128 | `Altruct.Symbolic.C128_reads` | propext, Classical.choice, Quot.sound |
| C128 | `Altruct.Symbolic.C128_value` | propext, Classical.choice, Quot.sound |
| C128 | `Altruct.Symbolic.C128_names` | propext, Classical.choice, Quot.sound |
| C129 | `Altruct.Mersenne.C129_seed_one` | propext, Classical.choice, Quot.sound |
| C129 | `Altruct.Mersenne.C129_seed_array` | propext, Classical.choice, Quot.sound |
| C129 | `Altruct.Mersenne.C129_seed_array_empty` | propext, Classical.choice, Quot.sound |
| C129 | `Altruct.Mersenne.C129_determined` | propext, Quot.sound |
| C129 | `Altruct.Mersenne.C129_never_stuck` | propext, Classical.choice, Quot.sound |
| C130 | `Altruct.Mersenne.C130_total` | propext, Classical.choice, Quot.sound |
| C130 | `Altruct.Mersenne.C130_save_load` | propext, Classical.choice, Quot.sound |
| C130 | `Altruct.Mersenne.C130_bounded` | propext, Classical.choice, Quot.sound |
| C130 | `Altruct.Mersenne.C130_uniform` | propext, Classical.choice, Quot.sound |
| C130 | `Altruct.Mersenne.C130_reals` | propext, Classical.choice, Quot.sound |
| C131 | `Altruct.Chain.C131_biconnected_components` | propext, Classical.choice, Quot.sound |
| C131 | `Altruct.Chain.C131_edges` | propext, Classical.choice, Quot.sound |
| C132 | `Altruct.Chain.C132_block_cut_tree` | propext, Classical.choice, Quot.sound |
| C132 | `Altruct.Chain.C132_biconnectivity` | propext, Classical.choice, Quot.sound |
| C133 | `Altruct.Chromatic.C133_complete` | propext, Classical.choice, Quot.sound |
| C133 | `Altruct.Chromatic.C133_tree` | propext, Classical.choice, Quot.sound |
| C133 | `Altruct.Chromatic.C133_cycle` | propext, Classical.choice, Quot.sound |
| C134 | `Altruct.Output.C134_container` | propext |
| C134 | `Altruct.Output.C134_injective` | propext |
| C134 | `Altruct.Output.C134_strings` | none |
| C134 | `Altruct.Output.C134_decimal` | propext, Classical.choice, Quot.sound |
| C134 | `Altruct.Output.C134_integers` | propext, Classical.choice, Quot.sound |
| C134 | `Altruct.Output.C134_fraction` | propext, Classical.choice, Quot.sound |
| C134 | `Altruct.Output.C134_modulo` | propext, Classical.choice, Quot.sound |
| C134 | `Altruct.Output.C134_as_pair` | propext, Classical.choice, Quot.sound |
