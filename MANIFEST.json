{
 "claims": [
  {
   "property": "C01",
   "status": "proved",
   "theorems": [
    "Rosemary.Props.C01_gcd",
    "Rosemary.Props.C01_gcd_list",
    "Rosemary.Props.C01_gcd_list_short"
   ],
   "note": "Lists of length 0 and 1 are described exactly: IndexError, and the element returned unchanged (a negative singleton is not normalised)."
  },
  {
   "property": "C02",
   "status": "proved",
   "theorems": [
    "Rosemary.Props.C02_ext_gcd"
   ],
   "note": ""
  },
  {
   "property": "C03",
   "status": "proved",
   "theorems": [
    "Rosemary.Props.C03_lcm",
    "Rosemary.Props.C03_lcm_list",
    "Rosemary.Props.C03_lcm_list_short"
   ],
   "note": ""
  },
  {
   "property": "C04",
   "status": "partial",
   "theorems": [
    "Rosemary.Props.C04_power_mod_partial",
    "Rosemary.Props.C04_power_mod_zero_exponent",
    "Rosemary.Props.C04_power_mod_violation",
    "Rosemary.Props.C04_power_mod_error"
   ],
   "note": "False in the code for k = 0 with m dividing a and m > 1 (returns 0, builtin pow returns 1); proved in every other case."
  },
  {
   "property": "C05",
   "status": "proved",
   "theorems": [
    "Rosemary.Props.C05_inverse_mod"
   ],
   "note": ""
  },
  {
   "property": "C06",
   "status": "proved",
   "theorems": [
    "Rosemary.Props.C06_bit_count"
   ],
   "note": ""
  },
  {
   "property": "C07",
   "status": "proved",
   "theorems": [
    "Rosemary.Props.C07_integer_log",
    "Rosemary.Props.C07_integer_log_error"
   ],
   "note": ""
  },
  {
   "property": "C08",
   "status": "partial",
   "theorems": [
    "Rosemary.Props.C08_integer_nth_root_partial",
    "Rosemary.Props.C08_integer_nth_root_two",
    "Rosemary.Props.C08_integer_nth_root_violation",
    "Rosemary.Props.C08_integer_nth_root_error"
   ],
   "note": "Proved for every exponent except 2; for n = 2 the call is integer_sqrt, which can be one too large (C09)."
  },
  {
   "property": "C09",
   "status": "partial",
   "theorems": [
    "Rosemary.Props.C09_integer_sqrt_partial",
    "Rosemary.Props.C09_integer_sqrt_bounds",
    "Rosemary.Props.C09_integer_sqrt_violation",
    "Rosemary.Props.C09_integer_sqrt_error"
   ],
   "note": "False in the code on part of [2^52, 2^60] because of int(n**0.5); first failing input is 67108865^2 - 1. Exact below it and above 2^60; never below the root and at most one above in between; exact on perfect squares."
  },
  {
   "property": "C10",
   "status": "partial",
   "theorems": [
    "Rosemary.Props.C10_chinese_partial",
    "Rosemary.Props.C10_chinese_error",
    "Rosemary.Props.C10_chinese_single",
    "Rosemary.Props.C10_chinese_violation"
   ],
   "note": "A single congruence is returned unreduced; everything else proved."
  },
  {
   "property": "C11",
   "status": "proved",
   "theorems": [
    "Rosemary.Props.C11_chinese_preconditioned"
   ],
   "note": ""
  },
  {
   "property": "C12",
   "status": "proved",
   "theorems": [
    "Rosemary.Props.C12_jacobi_symbol",
    "Rosemary.Props.C12_jacobi_symbol_prime"
   ],
   "note": ""
  },
  {
   "property": "C13",
   "status": "partial",
   "theorems": [
    "Rosemary.Props.C13_valuation_partial",
    "Rosemary.Props.C13_valuation_violation"
   ],
   "note": "Returns 0 for every negative n; proved for positive n."
  },
  {
   "property": "C14",
   "status": "proved",
   "theorems": [
    "Rosemary.Props.C14_is_square",
    "Rosemary.Props.C14_is_square_factored",
    "Rosemary.Props.C14_is_square_factored_negative",
    "Rosemary.Props.C14_is_power",
    "Rosemary.Props.C14_is_power_small",
    "Rosemary.Props.C14_is_power_k",
    "Rosemary.Props.C14_is_power_factored",
    "Rosemary.Props.C14_is_power_k_factored",
    "Rosemary.Props.C14_is_factorial"
   ],
   "note": "is_square(0) returns 0, which Python treats as falsy. is_power(1) returns False: 1 has no maximal exponent."
  },
  {
   "property": "C15",
   "status": "proved",
   "theorems": [
    "Rosemary.Props.C15_miller_rabin_prime",
    "Rosemary.Props.C15_miller_rabin_exact",
    "Rosemary.Props.C15_is_probable_prime",
    "Rosemary.Props.C15_miller_rabin_deterministic",
    "Rosemary.Props.C15_solovay_strassen",
    "Rosemary.Props.C15_lucas_lehmer",
    "Rosemary.Props.C15_lucas_lehmer_violation"
   ],
   "note": "Also lucas_lehmer, exact for p >= 3 and wrong at p = 2."
  },
  {
   "property": "C16",
   "status": "proved",
   "theorems": [
    "Rosemary.Props.C16_is_prime",
    "Rosemary.Props.C16_is_prime_real",
    "Rosemary.Props.C16_random_prime",
    "Rosemary.Props.primeList_isPrimeTable"
   ],
   "note": ""
  },
  {
   "property": "C17",
   "status": "proved",
   "theorems": [
    "Rosemary.Props.C17_next_prime",
    "Rosemary.Props.C17_next_prime_nonpositive",
    "Rosemary.Props.C17_next_probable_prime"
   ],
   "note": "For n <= 0 (outside the stated domain) the code returns 3."
  },
  {
   "property": "C27",
   "status": "partial",
   "theorems": [
    "Rosemary.Props.C27_factor_one_large_partial",
    "Rosemary.Props.C27_factor_real_one_large_partial",
    "Rosemary.Props.C27_factor_real_partial",
    "Rosemary.Props.C27_factor_small_partial",
    "Rosemary.Props.C27_factor_partial",
    "Rosemary.Props.C27_factor_zero",
    "Rosemary.Props.C27_factor_violation"
   ],
   "note": "Fully proved (with termination) for n != 0 with at most one prime factor above 999983, in particular for |n| < 999984^2. Beyond that, if the call returns, everything but primality of the large keys is proved for all random choices; primality is false: factor(341550071728321) returns a composite as prime. pollard_rho_brent always returns (C137), and factor returns with probability one (C147)."
  },
  {
   "property": "C28",
   "status": "proved",
   "theorems": [
    "Rosemary.Props.C28_factor_back",
    "Rosemary.Props.C28_factor_back_factor",
    "Rosemary.Props.C28_xdivisors",
    "Rosemary.Props.C28_divisors",
    "Rosemary.Props.C28_prime_divisors",
    "Rosemary.Props.C28_divisor_pairs"
   ],
   "note": "The factorization is an argument; prime_divisors keeps its order, which is increasing for the output of factor."
  },
  {
   "property": "C29",
   "status": "proved",
   "theorems": [
    "Rosemary.Props.C29_euler_phi",
    "Rosemary.Props.C29_moebius_mu",
    "Rosemary.Props.C29_divisor_tau",
    "Rosemary.Props.C29_divisor_sigma",
    "Rosemary.Props.C29_validate_input"
   ],
   "note": ""
  },
  {
   "property": "C30",
   "status": "proved",
   "theorems": [
    "Rosemary.Props.C30_carmichael_lambda",
    "Rosemary.Props.C30_carmichael_lambda_error",
    "Rosemary.Props.C30_carmichael_lambda_unit_factorization"
   ],
   "note": "Given the list [(1, 1)] instead of the integer 1 the code returns 0."
  },
  {
   "property": "C31",
   "status": "proved",
   "theorems": [
    "Rosemary.Props.C31_factorial",
    "Rosemary.Props.C31_factorial_error"
   ],
   "note": ""
  },
  {
   "property": "C36",
   "status": "proved",
   "theorems": [
    "Rosemary.Props.C36_smooth_factor",
    "Rosemary.Props.C36_smooth_factor_signed",
    "Rosemary.Props.C36_z2_elimination"
   ],
   "note": "Also: the elimination returns at least rows - columns vectors, all nonzero."
  },
  {
   "property": "C37",
   "status": "proved",
   "theorems": [
    "Rosemary.Props.C37_aq_pairs",
    "Rosemary.Props.C37_aq_bounds"
   ],
   "note": "The argument n of the generator is k times the number to factor; the congruence mod k*N implies the one mod N."
  },
  {
   "property": "C38",
   "status": "proved",
   "theorems": [
    "Rosemary.Props.C38_trial_division_bound",
    "Rosemary.Props.C38_trial_division",
    "Rosemary.Props.C38_fermat",
    "Rosemary.Props.C38_lehman",
    "Rosemary.Props.C38_pollard_p_minus_1",
    "Rosemary.Props.C38_pollard_rho",
    "Rosemary.Props.C38_pollard_rho_brent"
   ],
   "note": ""
  },
  {
   "property": "C19",
   "status": "proved",
   "theorems": [
    "Rosemary.Props.C19_linear_congruence"
   ],
   "note": ""
  },
  {
   "property": "C20",
   "status": "proved",
   "theorems": [
    "Rosemary.Props.C20_sqrts_mod_p",
    "Rosemary.Props.C20_sqrts_mod_p_total",
    "Rosemary.Props.C20_sqrts_mod_p_error",
    "Rosemary.Props.C20_nonresidue_exists"
   ],
   "note": "Random choices are a stream; the call ends whenever p % 8 != 1 or the stream contains a nonresidue (such residues exist)."
  },
  {
   "property": "C21",
   "status": "proved",
   "theorems": [
    "Rosemary.Props.C21_sqrts_mod_n",
    "Rosemary.Props.C21_sqrts_mod_n_total",
    "Rosemary.Props.C21_sqrts_mod_pk",
    "Rosemary.Props.C21_quadratic_lift",
    "Rosemary.Props.C21_sqrts_mod_n_one"
   ],
   "note": "n = 1 is outside the domain and raises IndexError. The docstring example for 11**3*23**3 lists the roots modulo 11**4*23**3."
  },
  {
   "property": "C22",
   "status": "proved",
   "theorems": [
    "Rosemary.Props.C22_quadratic_congruence",
    "Rosemary.Props.C22_quadratic_congruence_total",
    "Rosemary.Props.C22_quadratic_congruence_zero"
   ],
   "note": "Factorizations of n and of a1*n are arguments assumed correct. With a = 0, outside the domain, the call is proved never to end."
  },
  {
   "property": "C23",
   "status": "proved",
   "theorems": [
    "Rosemary.Props.C23_is_primitive_root",
    "Rosemary.Props.C23_primitive_root"
   ],
   "note": "Factorizations of n and of euler_phi(n) are arguments assumed correct. primitive_root(1) raises IndexError (example)."
  },
  {
   "property": "C24",
   "status": "proved",
   "theorems": [
    "Rosemary.Props.C24_nth_roots_of_unity",
    "Rosemary.Props.C24_nth_roots_of_minus1"
   ],
   "note": "The primitive root g is an argument, as in the API; the default is primitive_root(p), covered by C23."
  },
  {
   "property": "C25",
   "status": "proved",
   "theorems": [
    "Rosemary.Props.C25_discrete_log",
    "Rosemary.Props.C25_discrete_log_not_coprime"
   ],
   "note": "Moduli p >= 1. Also proved: a solution returned in the coprime case is positive. In the non-coprime case a solution can be missed (witness)."
  },
  {
   "property": "C26",
   "status": "proved",
   "theorems": [
    "Rosemary.Props.C26_multiplicative_order",
    "Rosemary.Props.C26_multiplicative_order_one"
   ],
   "note": "n = 1 is outside the domain and returns None."
  },
  {
   "property": "C79",
   "status": "proved",
   "theorems": [
    "Rosemary.Props.C79_fibonacci_primitive_roots",
    "Rosemary.Props.C79_total"
   ],
   "note": "The factorization of p - 1 is an argument; the call ends unless the random choices never hit a nonresidue (only for p = 1 mod 8)."
  },
  {
   "property": "C18",
   "status": "partial",
   "theorems": [
    "Rosemary.Props.C18_primesUpTo",
    "Rosemary.Props.C18_eratosthenes1",
    "Rosemary.Props.C18_eratosthenes2",
    "Rosemary.Props.C18_luo",
    "Rosemary.Props.C18_pritchard",
    "Rosemary.Props.C18_chartres",
    "Rosemary.Props.C18_primes",
    "Rosemary.Props.C18_primes_real",
    "Rosemary.Props.C18_primes_first_n_partial"
   ],
   "note": "All six sieves are proved for every integer n. primes_first_n uses a float estimate of the n-th prime (line 87), which is a parameter: the result is proved to consist of the smallest primes, and to have n entries when the estimate is large enough."
  },
  {
   "property": "C80",
   "status": "partial",
   "theorems": [
    "Rosemary.Props.C80_prime_range_small",
    "Rosemary.Props.C80_prime_range_large",
    "Rosemary.Props.C80_prime_range_partial",
    "Rosemary.Props.C80_prime_range_violation"
   ],
   "note": "As documented the property is false: for b <= 10**7 a prime b is included, for b > 10**7 a prime a <= sqrt(b) is skipped, prime_range(1) yields [2]. The exact behaviour is proved for all inputs; int(b**0.5) is a parameter, exact by C141 up to 2^48."
  },
  {
   "property": "C33",
   "status": "proved",
   "theorems": [
    "Rosemary.Props.C33_euler_phi_list",
    "Rosemary.Props.C33_euler_phi_list_error",
    "Rosemary.Props.C33_moebius_list",
    "Rosemary.Props.C33_moebius_list_error",
    "Rosemary.Props.C33_tau_list",
    "Rosemary.Props.C33_tau_list_error",
    "Rosemary.Props.C33_sigma_list",
    "Rosemary.Props.C33_sigma_list_error"
   ],
   "note": "int(n**0.5) is a parameter; moebius_list needs n < (s+1)^2, tau_list and sigma_list the exact floor; C141 proves both up to 2^48."
  },
  {
   "property": "C34",
   "status": "proved",
   "theorems": [
    "Rosemary.Props.C34_moebius_range",
    "Rosemary.Props.C34_moebius_range_none",
    "Rosemary.Props.C34_primePowers",
    "Rosemary.Props.C34_factored_range",
    "Rosemary.Props.C34_factored_range_none"
   ],
   "note": "factored_range gives 1 the factorization [(1, 1)]. int(b**0.5) in factored_range is a parameter with b < (s+1)^2, which C141 proves up to 2^48."
  },
  {
   "property": "C32",
   "status": "proved",
   "theorems": [
    "Rosemary.Props.C32_euler_phi_sum",
    "Rosemary.Props.C32_euler_phi_weighted_sum",
    "Rosemary.Props.C32_moebius_sum",
    "Rosemary.Props.C32_sigma_sum",
    "Rosemary.Props.C32_errors",
    "Rosemary.Props.C32_exactSqrt"
   ],
   "note": "int(m**0.5) is a parameter assumed to be the exact floor for the arguments m <= n that occur; C141 proves this up to 2^48."
  },
  {
   "property": "C35",
   "status": "partial",
   "theorems": [
    "Rosemary.Props.C35_prime_count_partial",
    "Rosemary.Props.C35_prime_sum_partial",
    "Rosemary.Props.C35_prime_count_keyError",
    "Rosemary.Props.C35_prime_count_violation",
    "Rosemary.Props.C35_prime_count_errors",
    "Rosemary.Props.C35_legendre",
    "Rosemary.Props.C35_prime_sum2",
    "Rosemary.Props.C35_prime_sum2_violation",
    "Rosemary.Props.C35_pi_table",
    "Rosemary.Props.C35_pi_table_error"
   ],
   "note": "legendre is proved for every integer, prime_sum2 for every n >= 1 (prime_sum2(0) = -1 is a proved violation), pi_table for every n >= 2 (UnboundLocalError below). prime_count and prime_sum are proved for every n >= 1 whose integer_sqrt is exact (n < 4503599761588224 or n > 2^60); for n = r^2 - 1 with integer_sqrt(n) = r both raise KeyError, shown with witnesses. prime_count's key 1 holds 1 instead of pi(1) = 0. lmo, meissel, lehmer and lmo_bit are in other properties."
  },
  {
   "property": "C41",
   "status": "partial",
   "theorems": [
    "Rosemary.Props.C41_unionfind_partial",
    "Rosemary.Props.C41_unionfind_keyError",
    "Rosemary.Props.C41_unionfind_violation",
    "Rosemary.Props.C41_unionfind_cycle_violation"
   ],
   "note": "Proved for every history in which union is applied to elements just looked up (as kruskal does) or to the names returned by find (as cheriton_tarjan does). For arbitrary union calls the property is false because union reads parent[x] instead of find(x): proved witnesses of a lost union and of a pointer cycle on which find never returns."
  },
  {
   "property": "C42",
   "status": "partial",
   "theorems": [
    "Rosemary.Props.C42_named_unionfind_partial",
    "Rosemary.Props.C42_named_unionfind_keyError",
    "Rosemary.Props.C42_named_unionfind_violation"
   ],
   "note": "Proved for every history whose unions name two different existing sets and whose new name is not in use by a third set. Uniting a set with itself makes find diverge (proved witness)."
  },
  {
   "property": "C43",
   "status": "partial",
   "theorems": [
    "Rosemary.Props.C43_leftist_heap_partial",
    "Rosemary.Props.C43_leftist_shape",
    "Rosemary.Props.C43_leftist_init_violation"
   ],
   "note": "For every history of constructions from two or more values, inserts, delete_mins and merges the heap content, find_min, delete_min and iteration order are those of the multiset. Partial because the constructor raises UnboundLocalError for fewer than two values (proved)."
  },
  {
   "property": "C45",
   "status": "proved",
   "theorems": [
    "Rosemary.Props.C45_bit_sieve",
    "Rosemary.Props.C45_bit_sieve_array",
    "Rosemary.Props.C45_bit_sieve_zero"
   ],
   "note": "Both classes, any sequence of mark_multiples calls, all m including the error beyond the size."
  },
  {
   "property": "C76",
   "status": "proved",
   "theorems": [
    "Rosemary.Props.C76_cached_function"
   ],
   "note": "func is a deterministic function that may raise; arguments that compare equal are identified."
  },
  {
   "property": "C46",
   "status": "proved",
   "theorems": [
    "Rosemary.Props.C46_toPoly",
    "Rosemary.Props.C46_list_add_subtract",
    "Rosemary.Props.C46_mul",
    "Rosemary.Props.C46_ps_mult",
    "Rosemary.Props.C46_ps_mult_karatsuba_threshold"
   ],
   "note": "Polynomials are Mathlib polynomials over the integers. The power series products are not truncated; a threshold below 2 makes the Karatsuba version recurse forever (proved)."
  },
  {
   "property": "C47",
   "status": "partial",
   "theorems": [
    "Rosemary.Props.C47_power_jcp",
    "Rosemary.Props.C47_power_jcp_zero",
    "Rosemary.Props.C47_ps_power",
    "Rosemary.Props.C47_ps_power_zero",
    "Rosemary.Props.C47_polynomial_pow",
    "Rosemary.Props.C47_zero_power_violation"
   ],
   "note": "All nonzero polynomials and all exponents; the zero polynomial raises IndexError (proved), hence partial."
  },
  {
   "property": "C48",
   "status": "proved",
   "theorems": [
    "Rosemary.Props.C48_ps_invert",
    "Rosemary.Props.C48_ps_invert_error"
   ],
   "note": ""
  },
  {
   "property": "C49",
   "status": "proved",
   "theorems": [
    "Rosemary.Props.C49_pseudo_quo_rem",
    "Rosemary.Props.C49_quo_rem",
    "Rosemary.Props.C49_quo_rem_complete",
    "Rosemary.Props.C49_quo_rem_unit",
    "Rosemary.Props.C49_quo_rem_degree_violation"
   ],
   "note": "quo_rem satisfies a = q b + r whenever it returns and finds every exact division with remainder; its divisibility test only inspects the leading coefficient, so the remainder can have the degree of the divisor (proved witness)."
  },
  {
   "property": "C50",
   "status": "partial",
   "theorems": [
    "Rosemary.Props.C50_ring_operations_partial",
    "Rosemary.Props.C50_sub_scalar_violation",
    "Rosemary.Props.C50_equality",
    "Rosemary.Props.C50_reduced"
   ],
   "note": "Everything except subtracting a number from a polynomial, which adds it (proved)."
  },
  {
   "property": "C81",
   "status": "proved",
   "theorems": [
    "Rosemary.Props.C81_eta_series",
    "Rosemary.Props.C81_delta_series",
    "Rosemary.Props.C81_zero"
   ],
   "note": "Uses Mathlib's pentagonal number theorem."
  },
  {
   "property": "C52",
   "status": "proved",
   "theorems": [
    "Rosemary.Props.C52_combinations",
    "Rosemary.Props.C52_number",
    "Rosemary.Props.C52_too_many"
   ],
   "note": "Order and completeness for t <= n; with t > n the generator never stops (proved)."
  },
  {
   "property": "C53",
   "status": "proved",
   "theorems": [
    "Rosemary.Props.C53_list",
    "Rosemary.Props.C53_int",
    "Rosemary.Props.C53_bad_radix"
   ],
   "note": "A radix <= 0 makes the generator count forever (proved)."
  },
  {
   "property": "C54",
   "status": "partial",
   "theorems": [
    "Rosemary.Props.C54_knuth_algorithm_l",
    "Rosemary.Props.C54_variations",
    "Rosemary.Props.C54_rvariations",
    "Rosemary.Props.C54_rvariations_edge",
    "Rosemary.Props.C54_phillips_partial",
    "Rosemary.Props.C54_phillips_violation"
   ],
   "note": "All four generators; phillips only for lists with two different elements: equal elements are listed twice or raise IndexError (proved)."
  },
  {
   "property": "C55",
   "status": "partial",
   "theorems": [
    "Rosemary.Props.C55_all_partial",
    "Rosemary.Props.C55_zero_raises",
    "Rosemary.Props.C55_num_parts_partial",
    "Rosemary.Props.C55_one_part_raises",
    "Rosemary.Props.C55_too_many_parts",
    "Rosemary.Props.C55_distinct_partial",
    "Rosemary.Props.C55_parts_partial",
    "Rosemary.Props.C55_distinct_parts_partial",
    "Rosemary.Props.C55_distinct_parts_wrong"
   ],
   "note": "Completeness, uniqueness and order proved for Algorithm P (n >= 1), Algorithm H (2 <= m <= n) and the backtracking search (positive parts without repetition). The claim fails for n = 0 without options (IndexError), num_parts = 1 (IndexError after [n]), num_parts > n (yields []), and distinct with custom parts (the largest part may repeat); these are proved as counterexamples."
  },
  {
   "property": "C56",
   "status": "partial",
   "theorems": [
    "Rosemary.Props.C56_binomial_partial",
    "Rosemary.Props.C56_binomial_outside",
    "Rosemary.Props.C56_binomial_wrong",
    "Rosemary.Props.C56_multinomial",
    "Rosemary.Props.C56_multinomial_error",
    "Rosemary.Props.C56_bell_number",
    "Rosemary.Props.C56_bell_number_error",
    "Rosemary.Props.C56_stirling_wrong",
    "Rosemary.Props.C56_stirling_key_error",
    "Rosemary.Props.C56_stirling_values",
    "Rosemary.Props.C56_stirling_right"
   ],
   "note": "binomial proved for 0 <= k <= n, multinomial and bell_number in full; violated by binomial outside that range (returns 1) and by stirling_number2, whose value for every pair of arguments is determined: right for at most one block and in two further cases only"
  },
  {
   "property": "C57",
   "status": "partial",
   "theorems": [
    "Rosemary.Props.C57_partition_list_partial",
    "Rosemary.Props.C57_partition_number_partial",
    "Rosemary.Props.C57_exact_index",
    "Rosemary.Props.C57_zero_raises"
   ],
   "note": "proved for n >= 1 provided the float expression for the number of pentagonal terms is exact, which C141 proves for n <= 2^40; n = 0 raises IndexError"
  },
  {
   "property": "C58",
   "status": "partial",
   "theorems": [
    "Rosemary.Props.C58_necklaces_partial",
    "Rosemary.Props.C58_weights_raise"
   ],
   "note": "unconditional for the formula, given that the divisors of n are factored correctly (C146_necklaces_partial is the call with the library's own factor); with weights every call raises TypeError"
  },
  {
   "property": "C82",
   "status": "partial",
   "theorems": [
    "Rosemary.Props.C82_rth_power_raises",
    "Rosemary.Props.C82_rth_power_partial"
   ],
   "note": "holds for r = 1 and n = 0 only; for every other input IndexError is raised"
  },
  {
   "property": "C83",
   "status": "proved",
   "theorems": [
    "Rosemary.Props.C83_bipartitions"
   ],
   "note": ""
  },
  {
   "property": "C59",
   "status": "proved",
   "theorems": [
    "Rosemary.Props.C59_domino_tilings",
    "Rosemary.Props.C59_empty_board"
   ],
   "note": "for every pattern of cache hits; boards without squares raise ValueError"
  },
  {
   "property": "C84",
   "status": "proved",
   "theorems": [
    "Rosemary.Props.C84_triomino_tilings",
    "Rosemary.Props.C84_empty_board"
   ],
   "note": "for every pattern of cache hits; boards without squares raise ValueError"
  },
  {
   "property": "C60",
   "status": "partial",
   "theorems": [
    "Rosemary.Props.C60_depth_first",
    "Rosemary.Props.C60_negative_weight",
    "Rosemary.Props.C60_dynamic_programming",
    "Rosemary.Props.C60_dynamic_programming_negative",
    "Rosemary.Props.C60_branch_and_bound_feasible",
    "Rosemary.Props.C60_branch_and_bound_zero",
    "Rosemary.Props.C60_branch_and_bound_partial",
    "Rosemary.Props.C60_branch_and_bound_rounded_partial",
    "Rosemary.Props.C60_branch_and_bound_rounding_violation",
    "Rosemary.Props.C60_branch_and_bound_negative",
    "Rosemary.Props.C60_simulated_annealing"
   ],
   "note": "depth_first and dynamic_programming proved in full; branch and bound feasible for every rounding (weights 0 raise ZeroDivisionError), optimal without rounding errors, and with double precision rounding if the values sum up to less than 2^48 and weights and capacity are at most 2^300; with values from 2^53 on the optimum can be lost (proved violation); simulated annealing feasible with the right value for all random choices"
  },
  {
   "property": "C61",
   "status": "proved",
   "theorems": [
    "Rosemary.Props.C61_algorithmx",
    "Rosemary.Props.C61_key_error",
    "Rosemary.Props.C61_number_of_solutions",
    "Rosemary.Props.C61_num_bits",
    "Rosemary.Props.C61_solutions"
   ],
   "note": "algorithmx / algorithm_dlx for every set iteration order; ExactCoverBinary.number_of_solutions (with its cache) and solutions. Rows are identified by position, so repeated rows count separately; empty rows are never chosen. number_of_solutions and solutions for nonnegative integers."
  },
  {
   "property": "C85",
   "status": "partial",
   "theorems": [
    "Rosemary.Props.C85_domino_tilings_partial",
    "Rosemary.Props.C85_single_square"
   ],
   "note": "Holds for all n except n = 1, where the code returns 1 although the single square has no tiling (C85_single_square)."
  },
  {
   "property": "C86",
   "status": "proved",
   "theorems": [
    "Rosemary.Props.C86_langford_pairings",
    "Rosemary.Props.C86_reversal"
   ],
   "note": "For all n."
  },
  {
   "property": "C63",
   "status": "proved",
   "theorems": [
    "Rosemary.Props.C63_history",
    "Rosemary.Props.C63_symmetric",
    "Rosemary.Props.C63_degree",
    "Rosemary.Props.C63_neighbors",
    "Rosemary.Props.C63_vertices",
    "Rosemary.Props.C63_edge_set",
    "Rosemary.Props.C63_total_degree",
    "Rosemary.Props.C63_complement",
    "Rosemary.Props.C63_induced_subgraph",
    "Rosemary.Props.C63_induced_key_error",
    "Rosemary.Props.C63_remove_neighborhood"
   ],
   "note": "All mutating operations over arbitrary histories, against an abstract graph (vertex set and weight relation); queries, complement, induced subgraph. The file loaders are C124, the matrix views C111; repr is not modelled."
  },
  {
   "property": "C87",
   "status": "proved",
   "theorems": [
    "Rosemary.Props.C87_extreme_degrees",
    "Rosemary.Props.C87_no_vertices",
    "Rosemary.Props.C87_induced_order",
    "Rosemary.Props.C87_degree_order"
   ],
   "note": "Over all histories of operations and all set iteration orders."
  },
  {
   "property": "C88",
   "status": "partial",
   "theorems": [
    "Rosemary.Props.C88_complete_graph_partial",
    "Rosemary.Props.C88_complete_graph_one",
    "Rosemary.Props.C88_random_graph",
    "Rosemary.Props.C88_coprime_pairs_graph_partial",
    "Rosemary.Props.C88_coprime_pairs_graph_one",
    "Rosemary.Props.C88_grid_graph_partial",
    "Rosemary.Props.C88_grid_graph_one",
    "Rosemary.Props.C88_petersen_graph"
   ],
   "note": "Exact for every n other than 1; for n = 1 complete_graph, coprime_pairs_graph and grid_graph return a graph with no vertices (proved). odd_graph is C123."
  },
  {
   "property": "C64",
   "status": "proved",
   "theorems": [
    "Rosemary.Props.C64_order",
    "Rosemary.Props.C64_reachable",
    "Rosemary.Props.C64_queue_order",
    "Rosemary.Props.C64_tree",
    "Rosemary.Props.C64_not_a_vertex"
   ],
   "note": "Every graph built by Graph operations, every start and every max_depth; also the queue order and breadth_first_search_tree."
  },
  {
   "property": "C65",
   "status": "proved",
   "theorems": [
    "Rosemary.Props.C65_order",
    "Rosemary.Props.C65_max_depth_partial",
    "Rosemary.Props.C65_tree",
    "Rosemary.Props.C65_not_a_vertex",
    "Rosemary.Props.C65_max_depth_misses"
   ],
   "note": "The order is a depth-first order and the tree links to the last earlier neighbour. With max_depth vertices within the depth can be missed (witness proved)."
  },
  {
   "property": "C66",
   "status": "proved",
   "theorems": [
    "Rosemary.Props.C66_components",
    "Rosemary.Props.C66_component",
    "Rosemary.Props.C66_is_connected"
   ],
   "note": "is_connected is also True for the graph without vertices."
  },
  {
   "property": "C67",
   "status": "proved",
   "theorems": [
    "Rosemary.Props.C67_dijkstra",
    "Rosemary.Props.C67_iterator",
    "Rosemary.Props.C67_not_a_vertex"
   ],
   "note": "Weights in any linearly ordered cancellative commutative monoid; heapq modelled by taking the least tuple."
  },
  {
   "property": "C68",
   "status": "partial",
   "theorems": [
    "Rosemary.Props.C68_bellman_ford_raises",
    "Rosemary.Props.C68_bellman_ford",
    "Rosemary.Props.C68_floyd_warshall_raises",
    "Rosemary.Props.C68_floyd_warshall_loopless",
    "Rosemary.Props.C68_floyd_warshall_partial",
    "Rosemary.Props.C68_floyd_warshall_negative_loop_violation"
   ],
   "note": "Complete for bellman_ford. floyd_warshall ignores loops: proved for the graph without loops and for nonnegative weights; a negative loop is not detected (proved violation)."
  },
  {
   "property": "C69",
   "status": "partial",
   "theorems": [
    "Rosemary.Props.C69_bidirectional_partial",
    "Rosemary.Props.C69_same_vertex_violation"
   ],
   "note": "Proved for different vertices; from a vertex to itself the result is (inf, []) (proved violation), and inf alone if there is no path."
  },
  {
   "property": "C77",
   "status": "proved",
   "theorems": [
    "Rosemary.Props.C77_found",
    "Rosemary.Props.C77_not_found",
    "Rosemary.Props.C77_elements"
   ],
   "note": "has_three_term_ap: for every nondecreasing list, the indices returned are increasing and form a progression, and False is returned exactly when there is none."
  },
  {
   "property": "C89",
   "status": "partial",
   "theorems": [
    "Rosemary.Props.C89_longest_partial",
    "Rosemary.Props.C89_pairs_violation"
   ],
   "note": "Proved whenever the list contains a progression of at least three members. Missing, because false: when the longest progressions are pairs only some of them are returned (C89_pairs_violation)."
  },
  {
   "property": "C78",
   "status": "proved",
   "theorems": [
    "Rosemary.Props.C78_solve",
    "Rosemary.Props.C78_empty_word"
   ],
   "note": "solve yields the word values of exactly the assignments that solve the puzzle, each once, for every iteration order of the sets; empty words raise an IndexError. Characters with a meaning in format strings are outside the model."
  },
  {
   "property": "C74",
   "status": "proved",
   "theorems": [
    "Rosemary.Props.C74_is_graphic"
   ],
   "note": "is_graphic (Havel-Hakimi): never raises, True exactly for degree sequences of simple graphs. The exchange argument is proved in Lemmas/HavelHakimi."
  },
  {
   "property": "C90",
   "status": "partial",
   "theorems": [
    "Rosemary.Props.C90_erdos_gallai_partial",
    "Rosemary.Props.C90_erdos_gallai_accepts",
    "Rosemary.Props.C90_erdos_gallai_violation"
   ],
   "note": "Exact for nonnegative integers with an even sum (both directions of the theorem of Erdos and Gallai are proved); every degree sequence is accepted. Missing, because false: the code checks neither parity nor sign ([1, 1, 1] and [-2] are accepted)."
  },
  {
   "property": "C51",
   "status": "partial",
   "theorems": [
    "Rosemary.Props.C51_add",
    "Rosemary.Props.C51_neg",
    "Rosemary.Props.C51_sub",
    "Rosemary.Props.C51_scale",
    "Rosemary.Props.C51_mul_partial",
    "Rosemary.Props.C51_mul_raises",
    "Rosemary.Props.C51_delete_row",
    "Rosemary.Props.C51_delete_col",
    "Rosemary.Props.C51_mul_violation",
    "Rosemary.Props.C51_add_violation",
    "Rosemary.Props.C51_larger_operand",
    "Rosemary.Props.C51_smaller_operand"
   ],
   "note": "Sum, difference, negative, multiples for all sizes, product of n by p with p by n. Missing because the code violates it: every product with a non-square result raises IndexError (line 210 swaps the dimensions), proved for all such pairs; a mismatched sum or difference is not rejected (line 108 compares self with itself): for all shapes a larger second operand is cut off, a smaller one raises IndexError."
  },
  {
   "property": "C91",
   "status": "partial",
   "theorems": [
    "Rosemary.Props.C91_determinant_partial",
    "Rosemary.Props.C91_determinant_regular",
    "Rosemary.Props.C91_one_by_one",
    "Rosemary.Props.C91_not_square",
    "Rosemary.Props.C91_pivot_violation",
    "Rosemary.Props.C91_mutation_violation",
    "Rosemary.Props.C91_two_by_two",
    "Rosemary.Props.C91_two_by_two_wrong"
   ],
   "note": "Returns the determinant whenever the leading principal minors of smaller order do not vanish; for n >= 2 always the determinant or 0, never an exception. The full claim is false: [[0,1],[1,0]] gives 0, [[0]] raises UnboundLocalError, and the entries are changed, so a second call gives another value. For MatrixQQ (Fractions) see C144."
  },
  {
   "property": "C70",
   "status": "proved",
   "theorems": [
    "Rosemary.Props.C70_prim",
    "Rosemary.Props.C70_prim_links",
    "Rosemary.Props.C70_prim_root",
    "Rosemary.Props.C70_kruskal",
    "Rosemary.Props.C70_kruskal_disconnected"
   ],
   "note": "Any weights from a linearly ordered cancellative monoid (negative ones included), any graph built by Graph operations. heapq is modelled as taking the least tuple. kruskal raises IndexError on every graph that is not connected, contrary to its docstring (proved)."
  },
  {
   "property": "C71",
   "status": "proved",
   "theorems": [
    "Rosemary.Props.C71_greedy_given",
    "Rosemary.Props.C71_greedy_default",
    "Rosemary.Props.C71_greedy_passes",
    "Rosemary.Props.C71_dsatur",
    "Rosemary.Props.C71_dsatur_rule",
    "Rosemary.Props.C71_no_vertices",
    "Rosemary.Props.C71_greedy_no_pass_violation"
   ],
   "note": "Proper coloring, first fit, bound by the largest degree plus one, second pass never worse, selection rule of dsatur. With passes < 1 and classes=True greedy_sequential returns a color map instead of classes (proved)."
  },
  {
   "property": "C92",
   "status": "partial",
   "theorems": [
    "Rosemary.Props.C92_number",
    "Rosemary.Props.C92_coloring_partial",
    "Rosemary.Props.C92_complete_violation",
    "Rosemary.Props.C92_no_vertices"
   ],
   "note": "The number is always the chromatic number. The coloring is an optimal one unless all different vertices are adjacent; on complete graphs no vertex is colored (proved), and the empty graph raises ValueError. Missing: nothing provable, the claim is false on complete graphs."
  },
  {
   "property": "C72",
   "status": "proved",
   "theorems": [
    "Rosemary.Props.C72_bron_kerbosch",
    "Rosemary.Props.C72_bron_kerbosch_binary",
    "Rosemary.Props.C72_tomita",
    "Rosemary.Props.C72_maximal_independent_sets",
    "Rosemary.Props.C72_tomita_loop_violation"
   ],
   "note": "Exact for all graphs (bron_kerbosch, bron_kerbosch_binary with lexicographic order, maximal_independent_sets) and for all simple graphs (tomita). With a loop, tomita, which maximal_cliques uses by default, misses cliques: C72_tomita_loop_violation."
  },
  {
   "property": "C73",
   "status": "partial",
   "theorems": [
    "Rosemary.Props.C73_pardalos",
    "Rosemary.Props.C73_pardalos_binary",
    "Rosemary.Props.C73_ostergard_partial",
    "Rosemary.Props.C73_ostergard_binary",
    "Rosemary.Props.C73_maximum_weight_clique",
    "Rosemary.Props.C73_branch_and_bound",
    "Rosemary.Props.C73_maximum_independent_set_partial",
    "Rosemary.Props.C73_empty_violation",
    "Rosemary.Props.C73_loop_violation",
    "Rosemary.Props.C73_negative_weight_violation",
    "Rosemary.Props.C73_independent_empty_violation"
   ],
   "note": "Proved for all loop-free graphs with at least one vertex (pardalos and branch_and_bound for all graphs); both ostergard versions and maximum_independent_set raise IndexError on the graph without vertices, and ostergard counts a looped vertex twice"
  },
  {
   "property": "C93",
   "status": "partial",
   "theorems": [
    "Rosemary.Props.C93_greedy",
    "Rosemary.Props.C93_culberson_partial",
    "Rosemary.Props.C93_culberson_violation"
   ],
   "note": "greedy: proved in full; culberson returns an independent set, but not a maximal one: on a graph without edges it returns the empty set"
  },
  {
   "property": "C75",
   "status": "partial",
   "theorems": [
    "Rosemary.Props.C75_hamiltonian_paths",
    "Rosemary.Props.C75_hamiltonian_paths_con",
    "Rosemary.Props.C75_is_connected2",
    "Rosemary.Props.C75_number",
    "Rosemary.Props.C75_number_bits",
    "Rosemary.Props.C75_number_bits_con",
    "Rosemary.Props.C75_number5_partial",
    "Rosemary.Props.C75_number5_violation",
    "Rosemary.Props.C75_number5_con_violation"
   ],
   "note": "All searches and counters proved exact for every graph and set order, except the two inclusion-exclusion counters: number_of_hamiltonian_paths5 is proved for at least two vertices and returns 0 on a single vertex (violation proved); number_of_hamiltonian_paths5_con is wrong already on the path with three vertices (violation proved)."
  },
  {
   "property": "C62",
   "status": "partial",
   "theorems": [
    "Rosemary.Props.C62_depth_first",
    "Rosemary.Props.C62_depth_first_finite",
    "Rosemary.Props.C62_branch_and_bound_partial",
    "Rosemary.Props.C62_single_point_violation",
    "Rosemary.Props.C62_farthest_insertion",
    "Rosemary.Props.C62_farthest_edges",
    "Rosemary.Props.C62_farthest_insertion_violation",
    "Rosemary.Props.C62_two_opt_partial",
    "Rosemary.Props.C62_two_opt_violation",
    "Rosemary.Props.C62_steepest_ascent_partial",
    "Rosemary.Props.C62_steepest_ascent_value",
    "Rosemary.Props.C62_steepest_ascent_violation",
    "Rosemary.Props.C62_random_two_opt",
    "Rosemary.Props.C62_random_two_opt_ends",
    "Rosemary.Props.C62_random_two_opt_hangs",
    "Rosemary.Props.C62_annealing"
   ],
   "note": "Exact arithmetic. depth_first and branch_and_bound are optimal for two or more points at finite distances, but return an empty list for a single point with the default matrix (violation proved). two_opt needs a symmetric matrix (violation proved otherwise). steepest_ascent_two_opt does not pass the distance matrix to farthest_insertion, so the value is wrong for matrices other than the Euclidean one (violation proved). random_two_opt never ends for three cities or fewer."
  },
  {
   "property": "C39",
   "status": "partial",
   "theorems": [
    "Rosemary.Props.C39_pell_fundamental_partial",
    "Rosemary.Props.C39_pell_negative_partial",
    "Rosemary.Props.C39_pell_sound",
    "Rosemary.Props.C39_pell_error",
    "Rosemary.Props.C39_pell_violation"
   ],
   "note": "Proved for every non-square D at which integer_sqrt is right, in particular all D below 4503599761588224 and above 2^60: termination, least positive solution, and for -1 ValueError exactly when there is no solution. Every returned pair solves the equation for all D. False where integer_sqrt is one too large: for D = 1152921502459363327 the returned pair is negative."
  },
  {
   "property": "C40",
   "status": "partial",
   "theorems": [
    "Rosemary.Props.C40_partial_quotients_partial",
    "Rosemary.Props.C40_convergents_partial",
    "Rosemary.Props.C40_valueError",
    "Rosemary.Props.C40_partial_quotients_violation",
    "Rosemary.Props.C40_diverges_violation"
   ],
   "note": "Proved for every non-square d at which integer_sqrt is right: termination, the partial quotients, least period, palindrome, convergents in lowest terms. ValueError exactly for squares and negative numbers, for all d. Where integer_sqrt is one too large the expansion is wrong (d = 67108865^2-1) or the constructor runs forever (d = 1152921498164396037)."
  },
  {
   "property": "C94",
   "status": "partial",
   "theorems": [
    "Rosemary.Props.C94_quadratic_partial",
    "Rosemary.Props.C94_quadratic_error",
    "Rosemary.Props.C94_quadratic_violation"
   ],
   "note": "Proved for q > 0, a conjugate below the integer part, and either q | d - p^2 or (scaled triple) q not dividing p^2, with integer_sqrt right as in C40. The claim is false in general: wrong expansions for (d, p, q) = (2, 10, 7), (2, 1, -1) and (7, 10, 4)."
  },
  {
   "property": "C95",
   "status": "partial",
   "theorems": [
    "Rosemary.Props.C95_minimal_sound",
    "Rosemary.Props.C95_generator_sound",
    "Rosemary.Props.C95_minimal_partial",
    "Rosemary.Props.C95_generator_partial",
    "Rosemary.Props.C95_minimal_violation",
    "Rosemary.Props.C95_error"
   ],
   "note": "Soundness for all D and N. Completeness for N = 1 or N not a square, given the right integer part of the floating point bound (C141 proves it up to 2^48) and of integer_sqrt. For a square N > 1 the claim is false: the class of (sqrt N, 0) is lost, e.g. no solution is listed for x^2 - 2y^2 = 4."
  },
  {
   "property": "C44",
   "status": "proved",
   "theorems": [
    "Rosemary.Props.C44_values",
    "Rosemary.Props.C44_insert",
    "Rosemary.Props.C44_insert_values",
    "Rosemary.Props.C44_decrease_key",
    "Rosemary.Props.C44_decrease_key_error",
    "Rosemary.Props.C44_delete_min",
    "Rosemary.Props.C44_restrictions"
   ],
   "note": "The pointers of the nodes are modelled one attribute assignment at a time; keys from any linear order. C44_restrictions shows that inserting a value twice makes a later delete_min raise KeyError and that decrease_key accepts larger keys and then returns wrong minima."
  },
  {
   "property": "C96",
   "status": "proved",
   "theorems": [
    "Rosemary.Props.C96_pairing_heap",
    "Rosemary.Props.C96_not_a_vertex",
    "Rosemary.Props.C96_agrees_with_dijkstra"
   ],
   "note": "On the pointer model of PairingHeap; weights in any linearly ordered cancellative commutative monoid."
  },
  {
   "property": "C97",
   "status": "proved",
   "theorems": [
    "Rosemary.Props.C97_buckets_returns",
    "Rosemary.Props.C97_buckets",
    "Rosemary.Props.C97_not_integral",
    "Rosemary.Props.C97_not_a_vertex",
    "Rosemary.Props.C97_unreached_weight_violation"
   ],
   "note": "isinstance(x, int) is the parameter asInt. The documentation's promise of a ValueError for any non-integral edge is violated for edges that are not reached (proved)."
  },
  {
   "property": "C98",
   "status": "proved",
   "theorems": [
    "Rosemary.Props.C98_factorization",
    "Rosemary.Props.C98_factorization_one",
    "Rosemary.Props.C98_factorization_error",
    "Rosemary.Props.C98_integer",
    "Rosemary.Props.C98_integer_real_partial",
    "Rosemary.Props.C98_nonpositive",
    "Rosemary.Props.C98_unsorted_violation"
   ],
   "note": "C98_integer: for every n >= 1 for which factor returns the factorization (C27), the result is the strictly increasing list of all k with phi(k) = n; C98_integer_real_partial instantiates it with the library's own table for n with at most one prime factor above 999983. A factorization given in another order loses solutions (C98_unsorted_violation)."
  },
  {
   "property": "C99",
   "status": "partial",
   "theorems": [
    "Rosemary.Props.C99_inverse_phi_partial",
    "Rosemary.Props.C99_terminates",
    "Rosemary.Props.C99_violation",
    "Rosemary.Props.C99_one_violation"
   ],
   "note": "A returned list is right for n >= 2 and the call always terminates, but inverse_phi(8) raises RuntimeError because phi_cache gets a key while its keys are iterated, and inverse_phi(1) misses 1."
  },
  {
   "property": "C100",
   "status": "partial",
   "theorems": [
    "Rosemary.Props.C100_largest_divisor_partial",
    "Rosemary.Props.C100_violation",
    "Rosemary.Props.C100_zero"
   ],
   "note": "Right when b divides n; every other call raises AttributeError, because rosemary.number_theory.factorization is a package without an attribute factor."
  },
  {
   "property": "C101",
   "status": "proved",
   "theorems": [
    "Rosemary.Props.C101_maximize_divisors",
    "Rosemary.Props.C101_maximize_divisors_real",
    "Rosemary.Props.C101_nonpositive"
   ],
   "note": "Optimality over all m <= B, for every B below the product of the prime table; with the library's table that covers B < 2^959980 (Chebyshev's bound)."
  },
  {
   "property": "C102",
   "status": "partial",
   "theorems": [
    "Rosemary.Props.C102_bernoulli_list",
    "Rosemary.Props.C102_zero_violation"
   ],
   "note": "Proved for every n >= 1; bernoulli_list(0) raises IndexError."
  },
  {
   "property": "C103",
   "status": "proved",
   "theorems": [
    "Rosemary.Props.C103_meissel",
    "Rosemary.Props.C103_lmo"
   ],
   "note": "lmo unconditionally; meissel for float roots whose integer parts are exact up to n (C141: for n <= 2^43)"
  },
  {
   "property": "C104",
   "status": "partial",
   "theorems": [
    "Rosemary.Props.C104_lehmer_partial",
    "Rosemary.Props.C104_lehmer_violation",
    "Rosemary.Props.C104_lehmer_fourth_powers",
    "Rosemary.Props.C104_lehmer_witness"
   ],
   "note": "the claim is false: lehmer(p**4-1) is too small for every prime p >= 37; exactly when it is right is characterised (partial: when a prime lies between n//p and n^(3/4); violation: otherwise)"
  },
  {
   "property": "C105",
   "status": "proved",
   "theorems": [
    "Rosemary.Props.C105_distance_network",
    "Rosemary.Props.C105_disconnected",
    "Rosemary.Props.C105_errors"
   ],
   "note": "All set iteration orders are covered by a parameter. Terminals outside the component of the first one are dropped silently, and fewer than two terminals in it raise StopIteration (C105_disconnected, C105_errors)."
  },
  {
   "property": "C106",
   "status": "proved",
   "theorems": [
    "Rosemary.Props.C106_minimum_cost_paths",
    "Rosemary.Props.C106_errors",
    "Rosemary.Props.C106_disconnected",
    "Rosemary.Props.C106_zero_weights",
    "Rosemary.Props.C106_best_root",
    "Rosemary.Props.C106_order"
   ],
   "note": "The documentation asks for positive weights; with zero weights the loop may not end (C106_zero_weights). Terminals in several components: UnboundLocalError or an endless loop."
  },
  {
   "property": "C107",
   "status": "partial",
   "theorems": [
    "Rosemary.Props.C107_cheriton_tarjan_partial",
    "Rosemary.Props.C107_small_degree_violation",
    "Rosemary.Props.C107_disconnected_violation",
    "Rosemary.Props.C107_no_vertices"
   ],
   "note": "Proved for connected graphs in which every vertex has two neighbours, for all outcomes of choice. The claim is false otherwise: a vertex with fewer than two neighbours makes LeftistHeap raise UnboundLocalError, and graphs that are not connected raise TypeError; both proved in general."
  },
  {
   "property": "C108",
   "status": "partial",
   "theorems": [
    "Rosemary.Props.C108_exact_coloring_partial",
    "Rosemary.Props.C108_isolated_error_violation",
    "Rosemary.Props.C108_isolated_endless_violation",
    "Rosemary.Props.C108_no_vertices"
   ],
   "note": "Proved for graphs without loops in which every vertex has a neighbour, and for complete graphs. False in the presence of isolated vertices: they are never chosen (coloring.py:570-581), so the search raises UnboundLocalError (proved for all graphs whose non-isolated vertices form a clique) or does not end (proved for the path of three vertices plus an isolated vertex, for every set order). Graphs with loops are not treated."
  },
  {
   "property": "C109",
   "status": "partial",
   "theorems": [
    "Rosemary.Props.C109_maxis_partial",
    "Rosemary.Props.C109_maxis_zero_limit",
    "Rosemary.Props.C109_edgeless_error_violation",
    "Rosemary.Props.C109_edgeless_endless_violation",
    "Rosemary.Props.C109_negative_limit_violation"
   ],
   "note": "proved when the vertices that remain for exact_coloring have neighbors among them (or none remain), and for color_limit=0 without restriction; false otherwise: UnboundLocalError or an endless loop on graphs without edges"
  },
  {
   "property": "C110",
   "status": "proved",
   "theorems": [
    "Rosemary.Props.C110_adjacency",
    "Rosemary.Props.C110_degrees",
    "Rosemary.Props.C110_laplacian",
    "Rosemary.Props.C110_laplacian_sums",
    "Rosemary.Props.C110_no_vertices",
    "Rosemary.Props.C110_density",
    "Rosemary.Props.C110_density_complement",
    "Rosemary.Props.C110_remove_edge"
   ],
   "note": "Matrices are compared entry by entry with Mathlib matrices indexed by the rank of the vertices in sorted order. density is the exact quotient before rounding to a float. remove_edge for an edge given as two vertices; deepcopy is the identity on values."
  },
  {
   "property": "C111",
   "status": "partial",
   "theorems": [
    "Rosemary.Props.C111_spanning_trees_partial",
    "Rosemary.Props.C111_minor",
    "Rosemary.Props.C111_two_vertices_violation"
   ],
   "note": "The matrix tree theorem is proved (Lemmas/MatrixTree, Lemmas/TreeCount) and applied to the elimination of Matrix.determinant: for at least three vertices the result is the number of spanning trees, including graphs with loops and graphs that are not connected. Missing: two vertices without an edge raise UnboundLocalError (violation proved)."
  },
  {
   "property": "C112",
   "status": "proved",
   "theorems": [
    "Rosemary.Props.C112_sudoku",
    "Rosemary.Props.C112_errors"
   ],
   "note": "The three-character strings of the constraint sets are triples; int(d) for ASCII characters. The iteration orders of sets of row numbers and of sets of strings are parameters."
  },
  {
   "property": "C113",
   "status": "proved",
   "theorems": [
    "Rosemary.Props.C113_latin_squares"
   ],
   "note": ""
  },
  {
   "property": "C114",
   "status": "partial",
   "theorems": [
    "Rosemary.Props.C114_farey_sound",
    "Rosemary.Props.C114_farey_partial",
    "Rosemary.Props.C114_farey_one",
    "Rosemary.Props.C114_farey_fundamental",
    "Rosemary.Props.C114_farey_large",
    "Rosemary.Props.C114_farey_endless_violation"
   ],
   "note": "farey: soundness for all inputs; least solution or endless loop for 0 < N <= 2 sqrt(D), -sqrt(D) <= N <= 0; complete for N = 1. For |N| > D it never returns although solutions may exist (violation 3^2 - 2*1^2 = 7)."
  },
  {
   "property": "C115",
   "status": "partial",
   "theorems": [
    "Rosemary.Props.C115_pell_small_partial",
    "Rosemary.Props.C115_pell_small_error",
    "Rosemary.Props.C115_pell_small_empty",
    "Rosemary.Props.C115_pell_small_violation"
   ],
   "note": "pell_small: exact for N^2 < D unless integer_sqrt(D) is too large (C09). The guard D*D <= N lets larger N through, for which solutions are missed."
  },
  {
   "property": "C116",
   "status": "partial",
   "theorems": [
    "Rosemary.Props.C116_small_minimal_partial",
    "Rosemary.Props.C116_small_minimal_classes_partial",
    "Rosemary.Props.C116_small_minimal_violation"
   ],
   "note": "one solution per class for 0 < N^2 < D unless integer_sqrt(D) is too large; the class of g for N = g^2 is missing from the result, in particular the result for N = 1 lacks the fundamental solution."
  },
  {
   "property": "C117",
   "status": "partial",
   "theorems": [
    "Rosemary.Props.C117_content_partial",
    "Rosemary.Props.C117_primitive_part_partial",
    "Rosemary.Props.C117_constant_violation",
    "Rosemary.Props.C117_ne"
   ],
   "note": "Proved for all polynomials but negative constants (and, for primitive_part, zero), where the claim is false: content([-c]) is -c and the primitive part of zero raises."
  },
  {
   "property": "C118",
   "status": "partial",
   "theorems": [
    "Rosemary.Props.C118_gcd_divides_partial",
    "Rosemary.Props.C118_gcd_coprime_partial",
    "Rosemary.Props.C118_gcd_violation",
    "Rosemary.Props.C118_gcd_wrong_value",
    "Rosemary.Props.C118_gcd_coprime_violation",
    "Rosemary.Props.C118_gcd_swap"
   ],
   "note": "gcd is right when the smaller operand divides a multiple of the larger one, and for coprime operands if the smaller has degree at most 2; with a proper common divisor of positive degree the call raises AttributeError (proved). For a second operand of degree 3 the claim is false even for coprime operands (AttributeError) and 1 is returned for polynomials with the common factor x - 1. Missing: which operands of degree 3 or more are treated correctly."
  },
  {
   "property": "C119",
   "status": "partial",
   "theorems": [
    "Rosemary.Props.C119_lmo_bit_partial",
    "Rosemary.Props.C119_lmo_bit_violation"
   ],
   "note": "Proved for x >= 8 with exact integer parts of the float roots (C141: all non-cubes up to 2^21); false at x = 27 (10 instead of 9), because the exponent 0.33333333333333 is below one third."
  },
  {
   "property": "C120",
   "status": "partial",
   "theorems": [
    "Rosemary.Props.C120_cfrac_sound",
    "Rosemary.Props.C120_cfrac_returns_partial",
    "Rosemary.Props.C120_cfrac_congruence",
    "Rosemary.Props.C120_multiplier",
    "Rosemary.Props.C120_cfrac_square_violation",
    "Rosemary.Props.C120_cfrac_none_violation"
   ],
   "note": "Every number returned is a proper divisor of a composite n; the call ends without exception if kn is not a square and integer_sqrt is exact there; the congruence and the choice of the multiplier are proved. The full claim is false: ZeroDivisionError whenever kn is a square (every n = m**2, and n = 319), and cfrac(187) is None. The float smoothness bound is a parameter."
  },
  {
   "property": "C121",
   "status": "proved",
   "theorems": [
    "Rosemary.Props.C121_is_power2",
    "Rosemary.Props.C121_is_power2_small"
   ],
   "note": "Complete: perfect powers with the least exponent, and False otherwise; below 2 the answer is False."
  },
  {
   "property": "C122",
   "status": "partial",
   "theorems": [
    "Rosemary.Props.C122_primorial_partial",
    "Rosemary.Props.C122_primorial_error"
   ],
   "note": "The float estimate is a parameter; missing is that it is large enough (as for C18)."
  },
  {
   "property": "C123",
   "status": "partial",
   "theorems": [
    "Rosemary.Props.C123_odd_graph_strings",
    "Rosemary.Props.C123_odd_graph_partial",
    "Rosemary.Props.C123_odd_graph_violation",
    "Rosemary.Props.C123_odd_graph_error"
   ],
   "note": "True for 1 <= k <= 5; proved false for every k >= 6, where some vertex repeats a digit."
  },
  {
   "property": "C124",
   "status": "proved",
   "theorems": [
    "Rosemary.Props.C124_load_graph",
    "Rosemary.Props.C124_load_graph_error",
    "Rosemary.Props.C124_load_dimacs_graph",
    "Rosemary.Props.C124_load_dimacs_graph_error"
   ],
   "note": "Lines are token lists and int() is a parameter; opening the file is not modelled."
  },
  {
   "property": "C125",
   "status": "proved",
   "theorems": [
    "Rosemary.Props.C125_update"
   ],
   "note": "For every size and all integer values."
  },
  {
   "property": "C126",
   "status": "partial",
   "theorems": [
    "Rosemary.Props.C126_radd_rsub",
    "Rosemary.Props.C126_rmul_partial",
    "Rosemary.Props.C126_rmul_violation",
    "Rosemary.Props.C126_getitem",
    "Rosemary.Props.C126_setitem",
    "Rosemary.Props.C126_item_error"
   ],
   "note": "__rmul__ gives self * other instead of other * self: proved with a witness."
  },
  {
   "property": "C127",
   "status": "partial",
   "theorems": [
    "Rosemary.Props.C127_two_opt_partial",
    "Rosemary.Props.C127_two_opt_small",
    "Rosemary.Props.C127_two_opt_violation"
   ],
   "note": "Termination, tour, length and neighbour optimality proved; full 2-opt optimality is false, with a Euclidean witness."
  },
  {
   "property": "C128",
   "status": "proved",
   "theorems": [
    "Rosemary.Props.C128_mgkrec",
    "Rosemary.Props.C128_mgkrec_error"
   ],
   "note": ""
  },
  {
   "property": "C129",
   "status": "partial",
   "theorems": [
    "Rosemary.Props.C129_solve_partial",
    "Rosemary.Props.C129_solve_empty",
    "Rosemary.Props.C129_solve_few_points",
    "Rosemary.Props.C129_solve_violation"
   ],
   "note": "The cost is proved; that the second result is the tour of this cost is false after an improving generation, with a witness."
  },
  {
   "property": "C130",
   "status": "proved",
   "theorems": [
    "Rosemary.Props.C130_gabow",
    "Rosemary.Props.C130_gabow_all",
    "Rosemary.Props.C130_gabow_empty",
    "Rosemary.Props.C130_gabow_disconnected"
   ],
   "note": "The comparison of heap entries is a parameter that compares the weights first; C130_gabow_all assumes in addition that it never raises, as in Python 2."
  },
  {
   "property": "C131",
   "status": "proved",
   "theorems": [
    "Rosemary.Props.C131_type_error"
   ],
   "note": "With entryLt, the transcription of Python 3's tuple comparison of the heap entries."
  },
  {
   "property": "C132",
   "status": "proved",
   "theorems": [
    "Rosemary.Props.C132_maximal_cliques",
    "Rosemary.Props.C132_maximum_clique",
    "Rosemary.Props.C132_same_size"
   ],
   "note": "Composed from C72 and C73 for the graphs without loops; with loops see the violations there."
  },
  {
   "property": "C133",
   "status": "proved",
   "theorems": [
    "Rosemary.Props.C133_euclidean_distance_matrix",
    "Rosemary.Props.C133_shortest_tour"
   ],
   "note": "The second part in exact real arithmetic."
  },
  {
   "property": "C134",
   "status": "proved",
   "theorems": [
    "Rosemary.Props.C134_pell_equation"
   ],
   "note": "resolvent_solution (pell.py:17-89) is not modelled: its first line reads the undefined name D."
  },
  {
   "property": "C135",
   "status": "partial",
   "theorems": [
    "Rosemary.Props.C135_fermat_partial",
    "Rosemary.Props.C135_fermat_even",
    "Rosemary.Props.C135_fermat_violation",
    "Rosemary.Props.C135_fermat_three"
   ],
   "note": "The docstring's primality claim fails: C135_fermat_violation shows that the square of every odd prime is returned unchanged, C135_fermat_three that fermat(3) = 1. C135_fermat_partial says exactly what is returned, for odd n >= 5 below 4503599761588224 or above 2^60 (where integer_sqrt is exact, see C09)."
  },
  {
   "property": "C136",
   "status": "partial",
   "theorems": [
    "Rosemary.Props.C136_lehman_partial",
    "Rosemary.Props.C136_lehman_small",
    "Rosemary.Props.C136_lehman_violation"
   ],
   "note": "The docstring's claim fails: lehman(71441) = 71441 = 199 * 359 (also 4 and 6), C136_lehman_violation. The loop over a stops at once when the floor square root of 4kn is already congruent to r, although a*a < 4kn. C136_lehman_partial proves, through Lehman's theorem, that this is the only way a factor is missed; C136_lehman_small that the claim holds for all n < 35937 other than 4 and 6."
  },
  {
   "property": "C137",
   "status": "proved",
   "theorems": [
    "Rosemary.Props.C137_pollard_rho",
    "Rosemary.Props.C137_pollard_rho_brent",
    "Rosemary.Props.C137_pollard_calls",
    "Rosemary.Props.C137_pollard_error"
   ],
   "note": "For all numbers drawn. The divisor may be n itself."
  },
  {
   "property": "C138",
   "status": "proved",
   "theorems": [
    "Rosemary.Props.C138_pollard_p_minus_1"
   ],
   "note": "The divisor may be n itself; 13 is the base of the powers, an example shows that it must be excluded."
  },
  {
   "property": "C139",
   "status": "partial",
   "theorems": [
    "Rosemary.Props.C139_multiplicative_partial",
    "Rosemary.Props.C139_multiplicative_error",
    "Rosemary.Props.C139_carmichael_partial",
    "Rosemary.Props.C139_divisors_partial",
    "Rosemary.Props.C139_primitive_root_partial",
    "Rosemary.Props.C139_sqrts_mod_n_partial",
    "Rosemary.Props.C139_violation"
   ],
   "note": "End to end, with the model's own factor and the real prime table. Exact for n with at most one prime factor above 999983 (OneLarge); beyond that the results can be wrong, C139_violation gives the witness 341550071728321."
  },
  {
   "property": "C140",
   "status": "partial",
   "theorems": [
    "Rosemary.Props.C140_factor_power_partial",
    "Rosemary.Props.C140_factor_power_negative",
    "Rosemary.Props.C140_unitary_divisors",
    "Rosemary.Props.C140_unitary_divisors_call",
    "Rosemary.Props.C140_unitary_divisors_one",
    "Rosemary.Props.C140_unitary_divisors_factorization",
    "Rosemary.Props.C140_unitary_divisors_given",
    "Rosemary.Props.C140_unitary_divisors_negative"
   ],
   "note": "Exact for powers of integers with at most one prime factor above 999983 (beyond it C27_factor_violation applies). unitary_divisors is exact for n >= 2; for n = 1 it repeats 1, for negative n it contains n itself, without n it always raises, and factor with power detection rejects negative integers."
  },
  {
   "property": "C141",
   "status": "partial",
   "theorems": [
    "Rosemary.Props.C141_int_sqrt",
    "Rosemary.Props.C141_half_sqrt",
    "Rosemary.Props.C141_half_cbrt",
    "Rosemary.Props.C141_pentagonal",
    "Rosemary.Props.C141_pell_bound",
    "Rosemary.Props.C141_lmo_roots",
    "Rosemary.Props.C141_tables",
    "Rosemary.Props.C141_sums",
    "Rosemary.Props.C141_prime_counting",
    "Rosemary.Props.C141_partition_list",
    "Rosemary.Props.C141_prime_range",
    "Rosemary.Props.C141_pell",
    "Rosemary.Props.C141_lmo_bit_partial",
    "Rosemary.Props.C141_lmo_bit_violation"
   ],
   "note": "Proved for every faithful rounding (all rounding modes; operations with an error below one unit in the last place). Missing: lmo_bit at cubes, where the claim is false; lmo_bit(27) is 10 instead of 9 for every faithful rounding."
  },
  {
   "property": "C142",
   "status": "partial",
   "theorems": [
    "Rosemary.Props.C142_arithmetic",
    "Rosemary.Props.C142_product",
    "Rosemary.Props.C142_delete_col",
    "Rosemary.Props.C142_disjoint",
    "Rosemary.Props.C142_determinant",
    "Rosemary.Props.C142_delete_row_violation",
    "Rosemary.Props.C142_delete_row_determinant",
    "Rosemary.Props.C142_constructor_violation"
   ],
   "note": "True for sums, differences, negatives, multiples, products and delete_col. False for delete_row (A.delete_row(2).determinant() changes A) and for two matrices constructed from the same rows."
  },
  {
   "property": "C143",
   "status": "partial",
   "theorems": [
    "Rosemary.Props.C143_heaps_partial",
    "Rosemary.Props.C143_merge_violation",
    "Rosemary.Props.C143_self_merge_violation",
    "Rosemary.Props.C143_program_violation"
   ],
   "note": "Nodes are objects in a store. Proved for every program that no longer uses a heap after it was the argument of merge and never merges a heap with itself: it ends, and all it shows is what separate priority queues would show. False otherwise: after h0.merge(h1), h1.insert(v) puts v into h0, whose length does not change; after h.merge(h), delete_min and insert never end."
  },
  {
   "property": "C144",
   "status": "partial",
   "theorems": [
    "Rosemary.Props.C144_ring_operations",
    "Rosemary.Props.C144_equality",
    "Rosemary.Props.C144_reduced",
    "Rosemary.Props.C144_sub_scalar_violation",
    "Rosemary.Props.C144_pseudo_quo_rem",
    "Rosemary.Props.C144_quo_rem_identity",
    "Rosemary.Props.C144_quo_rem_partial",
    "Rosemary.Props.C144_quo_rem_violation",
    "Rosemary.Props.C144_power_binary",
    "Rosemary.Props.C144_pow_partial",
    "Rosemary.Props.C144_pow_violation",
    "Rosemary.Props.C144_matrix_add",
    "Rosemary.Props.C144_matrix_neg",
    "Rosemary.Props.C144_matrix_sub",
    "Rosemary.Props.C144_matrix_scale",
    "Rosemary.Props.C144_matrix_mul_partial",
    "Rosemary.Props.C144_matrix_mul_violation",
    "Rosemary.Props.C144_matrix_mul_raises",
    "Rosemary.Props.C144_determinant_integer",
    "Rosemary.Props.C144_determinant_violation",
    "Rosemary.Props.C144_two_by_two",
    "Rosemary.Props.C144_two_by_two_partial",
    "Rosemary.Props.C144_integer_entries",
    "Rosemary.Props.C144_not_square"
   ],
   "note": "Sums, differences, negatives, products and evaluation are right. The rest of the claim is false, because // of fractions rounds down: quo_rem divides correctly just if the quotient has integer coefficients, powers modulo a polynomial are characterised likewise, and determinant of a matrix with at least two rows returns an integer always, so it is wrong for every matrix with another determinant. For integer entries determinant agrees with MatrixZZ (C91). PolyQQ.gcd is not modelled: it raises AttributeError (content is only defined in PolyZZ)."
  },
  {
   "property": "C145",
   "status": "partial",
   "theorems": [
    "Rosemary.Props.C145_polynomial",
    "Rosemary.Props.C145_polynomial_unambiguous",
    "Rosemary.Props.C145_matrix",
    "Rosemary.Props.C145_quadratic_partial",
    "Rosemary.Props.C145_quadratic_violation"
   ],
   "note": "Proved against a reader of such texts (Spec/Reading.lean) that does not use the printing code. For quadratic irrationals the claim is false when q = 1 and p is not 0: the code prints q in place of p, so that (p + sqrt(d))/1 always appears as 1 + sqrt(d)."
  },
  {
   "property": "C146",
   "status": "partial",
   "theorems": [
    "Rosemary.Props.C146_is_primitive_root_partial",
    "Rosemary.Props.C146_multiplicative_order_partial",
    "Rosemary.Props.C146_quadratic_congruence_partial",
    "Rosemary.Props.C146_fibonacci_primitive_roots_partial",
    "Rosemary.Props.C146_necklaces_partial",
    "Rosemary.Props.C146_violation"
   ],
   "note": "End to end with the model's own factor and the real prime table, for all arguments where the numbers that are factored have at most one prime factor above 999983 (always below 999984^2). False beyond: with n = 341550071728321, is_primitive_root(23, n) is True and multiplicative_order(23, n) is None."
  },
  {
   "property": "C147",
   "status": "proved",
   "theorems": [
    "Rosemary.Props.C147_lucky_call",
    "Rosemary.Props.C147_unlucky_call",
    "Rosemary.Props.C147_factor_returns",
    "Rosemary.Props.C147_factor_endless_violation"
   ],
   "note": "The draws of each call of pollard_rho_brent are independent and uniform (Spec/Randomness.lean). The claim contains its negative side: factor does not return for all random choices."
  },
  {
   "property": "C148",
   "status": "proved",
   "theorems": [
    "Rosemary.Props.C148_half_reject",
    "Rosemary.Props.C148_solovay_strassen_error",
    "Rosemary.Props.C148_solovay_strassen_repeated",
    "Rosemary.Props.C148_solovay_strassen_prime"
   ],
   "note": "The Euler liars form a proper subgroup of the units (Lemmas/Liars.lean)."
  },
  {
   "property": "C149",
   "status": "proved",
   "theorems": [
    "Rosemary.Props.C149_quarter_accept",
    "Rosemary.Props.C149_miller_rabin_error",
    "Rosemary.Props.C149_miller_rabin_repeated",
    "Rosemary.Props.C149_miller_rabin_prime"
   ],
   "note": "The strong liars lie in a subgroup of order at most (n - 1)/4 (Lemmas/Liars.lean)."
  },
  {
   "property": "C150",
   "status": "proved",
   "theorems": [
    "Rosemary.Props.C150_random_prime_uniform",
    "Rosemary.Props.C150_random_prime_returns"
   ],
   "note": "For every prime table as in C15."
  },
  {
   "property": "C151",
   "status": "proved",
   "theorems": [
    "Rosemary.Props.C151_nonresidue_probability",
    "Rosemary.Props.C151_search_length",
    "Rosemary.Props.C151_search_ends",
    "Rosemary.Props.C151_sqrts_mod_p",
    "Rosemary.Props.C151_sqrts_mod_n",
    "Rosemary.Props.C151_quadratic_congruence",
    "Rosemary.Props.C151_fibonacci_primitive_roots",
    "Rosemary.Props.C151_calls",
    "Rosemary.Props.C151_pell",
    "Rosemary.Props.C151_endless_violation"
   ],
   "note": "Given the factorization of n, as in C21; C151_calls is end to end for numbers with at most one prime factor above 999983."
  },
  {
   "property": "C152",
   "status": "partial",
   "theorems": [
    "Rosemary.Props.C152_draw",
    "Rosemary.Props.C152_edge_probability",
    "Rosemary.Props.C152_graph_probability",
    "Rosemary.Props.C152_close_partial",
    "Rosemary.Props.C152_precisely_violation"
   ],
   "note": "Independence and equal probability q are proved. The probability is not precisely d: r is a multiple of 1/2^53 below 1 and is compared by r <= d, so d < q <= d + 1/2^53 for every 0 <= d < 1, and random_graph(n, 0) can have edges."
  },
  {
   "property": "C153",
   "status": "proved",
   "theorems": [
    "Rosemary.Props.C153_performance_ratio",
    "Rosemary.Props.C153_caro_wei",
    "Rosemary.Props.C153_turan",
    "Rosemary.Props.C153_loop_violation"
   ],
   "note": "The argument of Halldorsson and Radhakrishnan, by induction along the run of the loop. The docstring does not exclude d = 0, where (d + 2)/3 < 1; then all vertices are returned (C93). With loops, which count for the degree, the ratio fails (witness)."
  },
  {
   "property": "C154",
   "status": "proved",
   "theorems": [
    "Rosemary.Props.C154_tomita_rounds",
    "Rosemary.Props.C154_tomita_count",
    "Rosemary.Props.C154_maximal_cliques_count",
    "Rosemary.Props.C154_optimal"
   ],
   "note": "Rounds are counted with tomitaLoopN, the loop of tomita with a counter (tomitaLoop_of_fuel shows that it gives the same result). The set operations of a round are counted in C164."
  },
  {
   "property": "C155",
   "status": "proved",
   "theorems": [
    "Rosemary.Props.C155_merge",
    "Rosemary.Props.C155_insert",
    "Rosemary.Props.C155_delete_min",
    "Rosemary.Props.C155_init"
   ],
   "note": "Calls of _leftist_heap_merge are counted by mergeCalls and buildCalls, which follow the branches of merge and build. Constructor calls in histories get at least two values (C43)."
  },
  {
   "property": "C156",
   "status": "proved",
   "theorems": [
    "Rosemary.Props.C156_gcd",
    "Rosemary.Props.C156_gcd_fibonacci",
    "Rosemary.Props.C156_ext_gcd"
   ],
   "note": "The loops are transcribed once more with a record of every round, and the recorded result is proved to be that of gcd and ext_gcd. Cost model: classical division and multiplication (size of the quotient times size of the divisor)."
  },
  {
   "property": "C157",
   "status": "proved",
   "theorems": [
    "Rosemary.Props.C157_mul_classical",
    "Rosemary.Props.C157_mul_karatsuba"
   ],
   "note": "Counts multiplications and additions/subtractions/sign changes of coefficients; the product computed along is proved to be that of mul_karatsuba. Copying of lists is not counted."
  },
  {
   "property": "C158",
   "status": "proved",
   "theorems": [
    "Rosemary.Props.C158_trial_division",
    "Rosemary.Props.C158_fermat",
    "Rosemary.Props.C158_lehman",
    "Rosemary.Props.C158_discrete_log"
   ],
   "note": "Counts the passes of all loops; square roots and gcds inside a pass count as one operation. The results computed along are proved to be those of the functions themselves."
  },
  {
   "property": "C159",
   "status": "partial",
   "theorems": [
    "Rosemary.Props.C159_unionfind_amortized",
    "Rosemary.Props.C159_named",
    "Rosemary.Props.C159_kruskal",
    "Rosemary.Props.C159_rank_violation"
   ],
   "note": "The amortized bound holds thanks to path compression alone (potential function on subtree sizes). The part on ranks is false: the exchange of x and y comes after px and py have been read, so unions are not made by rank; for every n a chain of n unions gives a tree of height n whose root has rank at most 1 (C159_rank_violation)."
  },
  {
   "property": "C160",
   "status": "proved",
   "theorems": [
    "Rosemary.Props.C160_bfs",
    "Rosemary.Props.C160_components",
    "Rosemary.Props.C160_dijkstra",
    "Rosemary.Props.C160_prim",
    "Rosemary.Props.C160_bellman_ford",
    "Rosemary.Props.C160_buckets"
   ],
   "note": "Counted are the elements taken from the queue, heap or buckets, the bucket indices tried and the adjacency entries looked at; a heap operation counts as one (its length is at most 2*m + 1, so it costs O(log m)). The results computed along are proved to be those of the functions themselves."
  },
  {
   "property": "C161",
   "status": "proved",
   "theorems": [
    "Rosemary.Props.C161_eratosthenes1",
    "Rosemary.Props.C161_eratosthenes2",
    "Rosemary.Props.C161_luo",
    "Rosemary.Props.C161_pritchard"
   ],
   "note": "Counted are the bytes written by slice assignments, for pritchard the assignments with their index and the passes of the inner loop. The bound on the sum of the reciprocals of primes is proved in Lemmas/PrimeReciprocals.lean. Square roots, the allocation of the block and the final list comprehension are not counted."
  },
  {
   "property": "C162",
   "status": "proved",
   "theorems": [
    "Rosemary.Props.C162_euler_phi_sum",
    "Rosemary.Props.C162_moebius_sum",
    "Rosemary.Props.C162_euler_phi_weighted_sum"
   ],
   "note": "The passes are counted exactly: each key computed costs its own loop once, keys are distinct quotients n//d above the square root. The tables of euler_phi_list and moebius_list up to the square root are not counted. int(m**0.5) is a parameter, assumed exact (C141 proves it up to 2^48)."
  },
  {
   "property": "C163",
   "status": "proved",
   "theorems": [
    "Rosemary.Props.C163_power_mod",
    "Rosemary.Props.C163_integer_log",
    "Rosemary.Props.C163_valuation",
    "Rosemary.Props.C163_newton_step",
    "Rosemary.Props.C163_integer_sqrt",
    "Rosemary.Props.C163_halley_step",
    "Rosemary.Props.C163_integer_nth_root"
   ],
   "note": "Counted transcriptions (Model/RootCosts.lean), each with a proof that its result is that of the function modelled in Model/Core.lean. The convergence is stated against the real root."
  },
  {
   "property": "C164",
   "status": "partial",
   "theorems": [
    "Rosemary.Props.C164_tomita_work_partial",
    "Rosemary.Props.C164_tomita_output_violation"
   ],
   "note": "Passes and set operations are O(3^(n/3)) with explicit constants 5/2 and 1400, for every graph. The claim for the whole work is false: on the graphs of Moon and Moser the lists yielded have together n/3 * 3^(n/3) entries (C164_tomita_output_violation); copies are bounded by n per pass. The constants count elements handled, not machine steps."
  },
  {
   "property": "C165",
   "status": "partial",
   "theorems": [
    "Rosemary.Props.C165_comparisons_partial",
    "Rosemary.Props.C165_all_terminals",
    "Rosemary.Props.C165_time_violation"
   ],
   "note": "At most t^3 |V| comparisons; precisely n^2(n^2-1)/6 if all n vertices are terminals, so the bound of the docstring is false (C165_time_violation: for every constant a star exceeds it). The work of dijkstra is C160."
  },
  {
   "property": "C166",
   "status": "partial",
   "theorems": [
    "Rosemary.Props.C166_power_jcp_time_partial",
    "Rosemary.Props.C166_power_jcp_passes",
    "Rosemary.Props.C166_power_jcp_memory_violation"
   ],
   "note": "Time bound proved in full, with the exact number of passes; the documented memory bound O(L) is false and its negation is proved. Cost of the big integer arithmetic is not modelled."
  },
  {
   "property": "C167",
   "status": "proved",
   "theorems": [
    "Rosemary.Props.C167_floyd_warshall_time",
    "Rosemary.Props.C167_floyd_warshall_storage"
   ],
   "note": "Comparisons counted by a transcription with counters whose result is proved equal to the model of floyd_warshall."
  },
  {
   "property": "C168",
   "status": "partial",
   "theorems": [
    "Rosemary.Props.C168_chartres_steps",
    "Rosemary.Props.C168_chartres_heap_partial",
    "Rosemary.Props.C168_chartres_heap_violation"
   ],
   "note": "Step bound proved in full. The comment on the size of the heap holds for n >= 9 and fails for n = 5. A heappop or heappush is one step; the comparisons inside them are not counted."
  },
  {
   "property": "C169",
   "status": "partial",
   "theorems": [
    "Rosemary.Props.C169_edited_paths_partial",
    "Rosemary.Props.C169_edited_paths_violation",
    "Rosemary.Props.C169_unedited"
   ],
   "note": "The vertices, their order and the distances are proved for every caller; the paths are not safe: line 193 yields the list that line 199 extends after the generator is resumed, and for a caller that empties the lists no yielded path except the first starts at s (violation, on every graph). A caller that changes nothing sees C67."
  },
  {
   "property": "C170",
   "status": "partial",
   "theorems": [
    "Rosemary.Props.C170_sums_partial",
    "Rosemary.Props.C170_primes_partial",
    "Rosemary.Props.C170_mul_karatsuba_partial",
    "Rosemary.Props.C170_leftist_merge_partial",
    "Rosemary.Props.C170_knapsack_violation",
    "Rosemary.Props.C170_tsp_violation"
   ],
   "note": "Proved for the sums, the prime counting functions, products and heaps: with room for lim + 1 nested calls they return the right value for all n < 2^lim (29 * 2^lim coefficients, 2^lim values with 2 lim calls). False for the two depth first searches, which raise RecursionError precisely if the number of items is at least the number of possible calls. Frames of other functions are not counted."
  },
  {
   "property": "C171",
   "status": "partial",
   "theorems": [
    "Rosemary.Props.C171_ring_partial",
    "Rosemary.Props.C171_equality_partial",
    "Rosemary.Props.C171_canonical",
    "Rosemary.Props.C171_primitive_part",
    "Rosemary.Props.C171_division_class_violation",
    "Rosemary.Props.C171_ring_violation"
   ],
   "note": "Proved by induction on expressions, objects with class and variable. Missing because false: a polynomial minus a number adds the number; ** raises IndexError on the zero polynomial; power_binary(0), quo_rem and pseudo_quo_rem return plain Polynomial objects whatever the operands, so that content and primitive_part raise AttributeError on them (violation theorems)."
  },
  {
   "property": "C172",
   "status": "partial",
   "theorems": [
    "Rosemary.Props.C172_renamed_calls",
    "Rosemary.Props.C172_degrees",
    "Rosemary.Props.C172_num_edges",
    "Rosemary.Props.C172_extreme_degrees",
    "Rosemary.Props.C172_is_connected",
    "Rosemary.Props.C172_clique_number",
    "Rosemary.Props.C172_maximal_cliques",
    "Rosemary.Props.C172_hamiltonian",
    "Rosemary.Props.C172_chromatic_number",
    "Rosemary.Props.C172_dijkstra",
    "Rosemary.Props.C172_prim",
    "Rosemary.Props.C172_kruskal",
    "Rosemary.Props.C172_dsatur_violation"
   ],
   "note": "Proved for every function listed except dsatur, for which the claim is false: C172_dsatur_violation gives a graph with seven vertices where it uses 3 or 4 colors according to the order of the set or the names. For tomita graphs without loops."
  },
  {
   "property": "C173",
   "status": "proved",
   "theorems": [
    "Rosemary.Props.C173_dijkstra_least",
    "Rosemary.Props.C173_iterator_least",
    "Rosemary.Props.C173_same_lengths",
    "Rosemary.Props.C173_pairing_heap_least",
    "Rosemary.Props.C173_bellman_ford_least",
    "Rosemary.Props.C173_same_distances",
    "Rosemary.Props.C173_dijkstra_error",
    "Rosemary.Props.C173_integral_weights",
    "Rosemary.Props.C173_not_a_shortest_path_violation",
    "Rosemary.Props.C173_symmetry_violation",
    "Rosemary.Props.C173_negative_cycle_violation"
   ],
   "note": "The first six hold for every addition that is monotone in the length so far and does not make walks shorter; floats are reals with a 53 bit significand, added with any monotone rounding that is exact on them, exponents unbounded. The last three show, with Python's rounding (to nearest, ties to even), what is lost: a returned path that is not a shortest one, asymmetric distances, a negative cycle that bellman_ford does not report. floyd_warshall is C177. Not covered: overflow, nan, dijkstra_buckets (integers only); dijkstra_bidirectional is C186."
  },
  {
   "property": "C174",
   "status": "proved",
   "theorems": [
    "Rosemary.Props.C174_prim_order",
    "Rosemary.Props.C174_prim_links_order",
    "Rosemary.Props.C174_kruskal_order",
    "Rosemary.Props.C174_cheriton_tarjan_order",
    "Rosemary.Props.C174_prim_float",
    "Rosemary.Props.C174_kruskal_float",
    "Rosemary.Props.C174_cheriton_tarjan_float",
    "Rosemary.Props.C174_total_depends_on_root_violation",
    "Rosemary.Props.C174_totals_differ_violation"
   ],
   "note": "Lemmas/WeightOrder relates two runs of the same function on graphs with weights in the same order, step by step, including the leftist heaps of cheriton_tarjan; C70 and C107 for the real weights then give the tree for floats. Bounds on the total need nonnegative weights. Overflow, infinities and nan are not modelled. gabow is not covered. Equal totals are false: two violations with Python's rounding."
  },
  {
   "property": "C175",
   "status": "proved",
   "theorems": [
    "Rosemary.Props.C175_one_distance",
    "Rosemary.Props.C175_metric",
    "Rosemary.Props.C175_positive",
    "Rosemary.Props.C175_add_edge",
    "Rosemary.Props.C175_unit"
   ],
   "note": "Uses the models of C67, C68, C69 and C96. dijkstra_bidirectional from a vertex to itself reports inf (C69) and is left out; rounding is C173."
  },
  {
   "property": "C176",
   "status": "proved",
   "theorems": [
    "Rosemary.Props.C176_same_total",
    "Rosemary.Props.C176_same_tree",
    "Rosemary.Props.C176_bottleneck",
    "Rosemary.Props.C176_cut",
    "Rosemary.Props.C176_cycle",
    "Rosemary.Props.C176_add_edge"
   ],
   "note": "Uses the models of C70, C107 and C130; when the functions return is stated there. For C176_add_edge there was no edge between a and b before."
  },
  {
   "property": "C177",
   "status": "proved",
   "theorems": [
    "Rosemary.Props.C177_floyd_warshall_error",
    "Rosemary.Props.C177_floyd_warshall_thousand",
    "Rosemary.Props.C177_integral_weights",
    "Rosemary.Props.C177_symmetric",
    "Rosemary.Props.C177_raises",
    "Rosemary.Props.C177_differs_from_dijkstra_violation"
   ],
   "note": "Model and rounding as in C68 and C173. The run with floats is compared, round by round, with the run of the same function on the exact weights (Lemmas/FloatFloyd). Overflow, infinite weights and nan are not modelled."
  },
  {
   "property": "C178",
   "status": "proved",
   "theorems": [
    "Rosemary.Props.C178_chain",
    "Rosemary.Props.C178_exact_searches_agree",
    "Rosemary.Props.C178_greedy_can_be_optimal",
    "Rosemary.Props.C178_welsh_powell",
    "Rosemary.Props.C178_dsatur_bipartite",
    "Rosemary.Props.C178_greedy_bipartite_violation"
   ],
   "note": "Uses the models of C71, C73, C92 and C108. The violation is about greedy_sequential on bipartite graphs, which promises no optimum."
  },
  {
   "property": "C179",
   "status": "partial",
   "theorems": [
    "Rosemary.Props.C179_divisor_sums_partial",
    "Rosemary.Props.C179_moebius_inversion_partial",
    "Rosemary.Props.C179_multiplicative_partial",
    "Rosemary.Props.C179_orders_partial",
    "Rosemary.Props.C179_euler_theorem_partial",
    "Rosemary.Props.C179_phi_inverse_partial",
    "Rosemary.Props.C179_euler_theorem_violation"
   ],
   "note": "End to end with the model's own factor, as in C139 and C146. Partial because of the restriction on large prime factors; without it the claim is false: euler_phi(341550071728321) is wrong and power_mod(23, euler_phi(n), n) is not 1."
  },
  {
   "property": "C180",
   "status": "partial",
   "theorems": [
    "Rosemary.Props.C180_sieves_and_counts",
    "Rosemary.Props.C180_prime_count_partial",
    "Rosemary.Props.C180_next_prime",
    "Rosemary.Props.C180_tables"
   ],
   "note": "Uses the models of C16-C18, C32, C33, C35, C103 and C139. Partial because of prime_count and prime_sum, which raise KeyError where integer_sqrt is one too large (C35); the integer parts of the roots in meissel are right up to 2^43 by C141."
  },
  {
   "property": "C181",
   "status": "partial",
   "theorems": [
    "Rosemary.Props.C181_leaves_partial",
    "Rosemary.Props.C181_time_violation"
   ],
   "note": "Proved: at most |V|(|V|+1)/2 vertices are looked at by the calls of leaves(). Refuted by a proof: the bound O(t |E| log |V|) of the docstring, on a path with one chord and a tail of any length."
  },
  {
   "property": "C182",
   "status": "partial",
   "theorems": [
    "Rosemary.Props.C182_keys_partial",
    "Rosemary.Props.C182_time_violation"
   ],
   "note": "Proved: on every connected graph with two neighbours at every vertex exactly |V|(|V|+1)/2 - 1 keys are copied, for all random choices. The documented bound is false: on cycles more than c |E| log log |V| keys are copied, for every c."
  },
  {
   "property": "C183",
   "status": "partial",
   "theorems": [
    "Rosemary.Props.C183_rounds_partial",
    "Rosemary.Props.C183_power_violation",
    "Rosemary.Props.C183_time_violation"
   ],
   "note": "At most log p powers are computed in the loop (proved). The size of the numbers is not bounded as documented: if p % 8 = 1 and 2^s divides p - 1, the roots of a root of -1 need a number of 2^(s-2) bits for all random choices; for the prime 3 * 2^189 + 1 that exceeds 2^150 log(p)^4. The time of the builtin pow is not modelled."
  },
  {
   "property": "C184",
   "status": "proved",
   "theorems": [
    "Rosemary.Props.C184_legendre",
    "Rosemary.Props.C184_inverse",
    "Rosemary.Props.C184_quadratic",
    "Rosemary.Props.C184_prime_modulus",
    "Rosemary.Props.C184_roots",
    "Rosemary.Props.C184_orders",
    "Rosemary.Props.C184_discrete_log"
   ],
   "note": "Agreement of the models of zn_arithmetic.py and core.py with each other, from Mathlib's Legendre symbol, Euler's criterion and orders of elements. Functions with random choices are compared whenever both return."
  },
  {
   "property": "C185",
   "status": "partial",
   "theorems": [
    "Rosemary.Props.C185_combinations_partial",
    "Rosemary.Props.C185_combinations_violation",
    "Rosemary.Props.C185_tuples",
    "Rosemary.Props.C185_permutations",
    "Rosemary.Props.C185_variations",
    "Rosemary.Props.C185_partitions_partial",
    "Rosemary.Props.C185_euler",
    "Rosemary.Props.C185_eta_partial",
    "Rosemary.Props.C185_bell",
    "Rosemary.Props.C185_bipartitions_symm",
    "Rosemary.Props.C185_tilings_partial",
    "Rosemary.Props.C185_tilings_violation"
   ],
   "note": "Violated for t > n (binomial is 1, combinations never ends) and for one square (domino_tilings(1) is 1, number_of_domino_tilings(1, 1) is 0). n = 0 is left out for the partitions because both functions raise there. partition_list is taken with the exact index where the code uses floating point."
  },
  {
   "property": "C186",
   "status": "proved",
   "theorems": [
    "Rosemary.Props.C186_bidirectional_error",
    "Rosemary.Props.C186_bidirectional_thousand",
    "Rosemary.Props.C186_integral_weights",
    "Rosemary.Props.C186_same_vertex_violation",
    "Rosemary.Props.C186_symmetry_violation",
    "Rosemary.Props.C186_differs_from_dijkstra_violation"
   ],
   "note": "Lemmas/Bidirectional holds for any commutative, monotone addition that is exact for 0 (bidirectional_weak). On the path 0-1-2-3-4 with weights 1, 2^-53, 2^-53, 2^-53 the length from 0 to 4 is 1, from 4 to 0 it is 1 + 2^-52, and dijkstra from 4 gives 1 + 2^-51. For s = t the result is (inf, []). Overflow, subnormal numbers, nan and inf weights are not modelled."
  },
  {
   "property": "C187",
   "status": "proved",
   "theorems": [
    "Rosemary.Props.C187_chromatic_number",
    "Rosemary.Props.C187_clique_number",
    "Rosemary.Props.C187_independence_number",
    "Rosemary.Props.C187_is_connected",
    "Rosemary.Props.C187_hamiltonian_paths",
    "Rosemary.Props.C187_spanning_trees",
    "Rosemary.Props.C187_greedy_violation"
   ],
   "note": "The change is one more operation (add_edge between existing vertices, delete_edge, delete_vertex) at the end of any history; both runs are the modelled functions. For spanning trees the graph has at least three vertices, as in C111. The failure for greedy_sequential is a concrete tree."
  },
  {
   "property": "C188",
   "status": "proved",
   "theorems": [
    "Rosemary.Props.C188_negative_unit",
    "Rosemary.Props.C188_powers",
    "Rosemary.Props.C188_multiple",
    "Rosemary.Props.C188_farey_first",
    "Rosemary.Props.C188_generator",
    "Rosemary.Props.C188_minimal",
    "Rosemary.Props.C188_minimal_one_violation"
   ],
   "note": "The hypothesis on D (integer_sqrt is right, C09) and on the integer part of the floating point bound (C141) are part of the statement. The pairs of pell_small are those yielded after any number of convergents."
  },
  {
   "property": "C189",
   "status": "proved",
   "theorems": [
    "Rosemary.Props.C189_order",
    "Rosemary.Props.C189_capacity",
    "Rosemary.Props.C189_one_more_item",
    "Rosemary.Props.C189_units",
    "Rosemary.Props.C189_same_length",
    "Rosemary.Props.C189_distances",
    "Rosemary.Props.C189_numbering",
    "Rosemary.Props.C189_direction",
    "Rosemary.Props.C189_one_point_less",
    "Rosemary.Props.C189_farthest_numbering_violation",
    "Rosemary.Props.C189_farthest_one_point_less_violation"
   ],
   "note": "Integer items and exact arithmetic for distances (an ordered group with infinity), as in C60 and C62. The failures for farthest_insertion are concrete points with distances along the axes."
  },
  {
   "property": "C190",
   "status": "proved",
   "theorems": [
    "Rosemary.Props.C190_least",
    "Rosemary.Props.C190_fermat",
    "Rosemary.Props.C190_fermat_small",
    "Rosemary.Props.C190_lehman",
    "Rosemary.Props.C190_lehman_cases"
   ],
   "note": "trial_division with the table of primes as a parameter (IsPrimeTable). cfrac is covered whenever it returns a number; pollard_p_minus_1 is not compared. The range in C190_fermat is that of C135."
  },
  {
   "property": "C191",
   "status": "proved",
   "theorems": [
    "Rosemary.Props.C191_invert_invert",
    "Rosemary.Props.C191_invert_product",
    "Rosemary.Props.C191_invert_power",
    "Rosemary.Props.C191_power_laws",
    "Rosemary.Props.C191_precision",
    "Rosemary.Props.C191_jcp"
   ],
   "note": "Integer coefficients and exponents k >= 0. The laws are equalities of the returned lists."
  },
  {
   "property": "C192",
   "status": "proved",
   "theorems": [
    "Rosemary.Props.C192_order",
    "Rosemary.Props.C192_one_more_set",
    "Rosemary.Props.C192_binary"
   ],
   "note": "Covers are counted as sets of indices, so that equal sets at different places count separately, as in the code (C61)."
  },
  {
   "property": "C193",
   "status": "proved",
   "theorems": [
    "Rosemary.Props.C193_same_answers",
    "Rosemary.Props.C193_sorted"
   ],
   "note": "LeftistHeap raises for fewer than two initial values (C43), hence the two keys at the start. decrease_key, which LeftistHeap lacks, is not used; it is in C44."
  },
  {
   "property": "C194",
   "status": "proved",
   "theorems": [
    "Rosemary.Props.C194_sets",
    "Rosemary.Props.C194_order",
    "Rosemary.Props.C194_groups",
    "Rosemary.Props.C194_scaling",
    "Rosemary.Props.C194_lattice",
    "Rosemary.Props.C194_chinese_order",
    "Rosemary.Props.C194_chinese_residues",
    "Rosemary.Props.C194_chinese_groups",
    "Rosemary.Props.C194_factor_back"
   ],
   "note": "Derived from the characterisations in C01, C03, C10 and C28; the statements speak of the function values only."
  },
  {
   "property": "C195",
   "status": "proved",
   "theorems": [
    "Rosemary.Props.C195_sums",
    "Rosemary.Props.C195_products",
    "Rosemary.Props.C195_associativity_violation",
    "Rosemary.Props.C195_triangular",
    "Rosemary.Props.C195_definite",
    "Rosemary.Props.C195_dominant",
    "Rosemary.Props.C195_determinant_product"
   ],
   "note": "The failing bracketing is part of the statement; the determinant of other matrices is the subject of C91."
  },
  {
   "property": "C196",
   "status": "proved",
   "theorems": [
    "Rosemary.Props.C196_complement_twice",
    "Rosemary.Props.C196_complement_involution",
    "Rosemary.Props.C196_induced_twice",
    "Rosemary.Props.C196_complement_induced",
    "Rosemary.Props.C196_deletions",
    "Rosemary.Props.C196_edges",
    "Rosemary.Props.C196_degree_sequence"
   ],
   "note": "Graphs are compared by vertices and weights (toAbs), not by the order of dictionary keys."
  },
  {
   "property": "C197",
   "status": "proved",
   "theorems": [
    "Rosemary.Props.C197_ratio",
    "Rosemary.Props.C197_two_terminals",
    "Rosemary.Props.C197_all_terminals",
    "Rosemary.Props.C197_distance_trees"
   ],
   "note": "Derived from the results of the two heuristics (C105, C106), dijkstra (C67) and prim (C70) for arbitrary iteration orders; the improvement step is shown to return a minimum spanning tree when the terminals fill a component, and never more than a spanning tree of the distance network."
  },
  {
   "property": "C198",
   "status": "proved",
   "theorems": [
    "Rosemary.Props.C198_tree_below_tours",
    "Rosemary.Props.C198_exact_tours",
    "Rosemary.Props.C198_heuristic_tours"
   ],
   "note": "Exact arithmetic in any ordered commutative group; that depth_first returns is C62, ReturnedLength is the value of either function."
  }
 ]
}