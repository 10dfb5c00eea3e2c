# Design of the formal model of rosemary

## What this is

`/repo` is a pure Python library (number theory, algebra, combinatorics, data
structures, graphs).  `lean/Verif` holds a Lean 4 model of the functions listed
below and machine-checked proofs of the properties in `properties.jsonl`.

Layout of `lean/Verif`:

* `Model/*.lean` - transcription of the Python functions, branch by branch.  Each
  definition cites the file and lines it models.  No theorem about behaviour lives here,
  except termination arguments.
* `Lemmas/*.lean` - helper lemmas about the model.
* `Props/*.lean` - the property theorems.  Statements use only the model entry points
  (the public API) and notions from Mathlib or a small spec definition placed next to the
  theorem (`Int.gcd`, `Nat.Prime`, `jacobiSym`, `ZMod`, `Nat.totient`, lists of
  solutions, reachability, ...).  Beside each theorem an `example` shows a non-trivial
  instance meeting its hypotheses.

## Modelling conventions

* Python `int` is `Int` (or `Nat` where the code only meets nonnegative values and
  negative inputs are rejected or handled first).  Python `//` and `%` are floor
  division: `Int.fdiv`/`Int.fmod`; on nonnegative operands these are `Nat` `/` and `%`.
* Exceptions are values: `Except PyErr a`, with the exception class recorded.
* `while` loops are recursive functions.  Where the loop terminates on every input the
  recursion is well-founded and Lean checks termination.  Where termination is not
  guaranteed the loop takes fuel, or is written with `partial_fixpoint` in `Option`; `none` then means
  "does not terminate" and theorems say so.
* Mutable lists and dicts are passed and returned (state passing); aliasing visible to
  the caller is stated where it matters.
* Generators are modelled by the list of values they yield (or, when infinite or
  error-terminated, by the yielded prefix plus the outcome).
* Randomness is an oracle argument: theorems quantify over all oracles. C147 to C152 speak of probabilities: there the
  draws are independent, and each is uniform on the interval given to `randint` or on the multiples of 2^-53 below 1 (`Spec/Randomness.lean`, Mathlib's product
  measures). That the generator of Python behaves like this is an idealisation.
* Set iteration order is unspecified: where it matters the order is a parameter
  `ord : Finset V -> List V` with the hypothesis that `ord S` lists `S` without
  repetition, and the theorems hold for every such order.
* Dicts are association lists in insertion order (`Model/Dict.lean`).  `lru_cache`/memo
  dicts are modelled as state when the caching is hand-written (then a theorem says that
  the cache never changes the answer) and left out when it is a decorator of a pure
  function.
* `heapq` is a sorted list of pairs; pairing heaps and leftist heaps of the library are
  modelled as trees, with node references where the code uses them.
* Objects with identity (heap nodes, union-find parents) are indices into a memory.
* Graphs: theorems speak about `history ops`, the graph that an arbitrary finite sequence
  of calls of the public mutators builds from `Graph()`, through the abstraction `toAbs`
  to a set of vertices and a partial weight function.
* Weights are elements of an ordered field or ordered group; infinite distances are a
  separate value.
* Floating point: only `int(n**0.5)` is modelled numerically, see C09.  Other uses of
  floats (logarithm bounds, float weights) are outside the model or replaced by exact
  arithmetic, and this is stated at the property.

## Trusted base

* The Lean 4.33.0 kernel, and Mathlib as installed (only modules imported one by one).
* Axioms: every theorem depends on at most `propext`, `Classical.choice`, `Quot.sound`.
  No `sorry`, no axioms of our own, no `native_decide`, no `bv_decide`.
* That the transcription of the Python source into Lean is faithful.  It is done by
  hand, function by function, with line citations; the code is not executed.
* CPython semantics of the constructs used (integers are unbounded, floor division,
  dict insertion order, `heapq` as a correct priority queue, `bisect`, `sorted`,
  IEEE-754 binary64 conversion and square root correctly rounded).
* Float expressions other than `int(n**0.5)` are arguments of the model; theorems either
  hold for every value of the argument or name the bound that they need.
* The table of primes in `/repo` (78498 primes below 10^6) is not copied into Lean as a
  literal; the model takes the table as "the primes up to 10^6".  That the literal in the
  source is this list was checked by a script outside Lean.

## Properties

`proved`: the theorems cover the whole property for the modelled code.
`partial`: the code violates the property on part of its domain, or only part is proved; the
main theorem carries the suffix `_partial`, and a witness theorem shows the failure when the
code is at fault.  "Property file" is the file under `lean/Verif/Props`; the models it imports
are under `lean/Verif/Model`.

| id | title | status | property file | code | theorems | note |
|----|-------|--------|---------------|------|----------|------|
| C01 | gcd and gcd_list return the greatest common divisor | proved | Core | number_theory/core.py:gcd, number_theory/core.py:gcd_list | `C01_gcd`, `C01_gcd_list`, `C01_gcd_list_short` | Lists of length 0 and 1 are described exactly: IndexError, and the element returned unchanged (a negative singleton is not normalised). |
| C02 | ext_gcd returns Bezout coefficients | proved | Core | number_theory/core.py:ext_gcd | `C02_ext_gcd` |  |
| C03 | lcm and lcm_list return the least common multiple | proved | Core | number_theory/core.py:lcm, number_theory/core.py:lcm_list | `C03_lcm`, `C03_lcm_list`, `C03_lcm_list_short` |  |
| C04 | power_mod computes a^k mod m | partial | Core | number_theory/core.py:power_mod | `C04_power_mod_partial`, `C04_power_mod_zero_exponent`, `C04_power_mod_violation`, `C04_power_mod_error` | False in the code for k = 0 with m dividing a and m > 1 (returns 0, builtin pow returns 1); proved in every other case. |
| C05 | inverse_mod returns the modular inverse or refuses | proved | Core | number_theory/core.py:inverse_mod | `C05_inverse_mod` |  |
| C06 | bit_count is the number of one bits | proved | Core | number_theory/core.py:bit_count | `C06_bit_count` |  |
| C07 | integer_log is the floor logarithm | proved | Core | number_theory/core.py:integer_log | `C07_integer_log`, `C07_integer_log_error` |  |
| C08 | integer_nth_root is the exact floor root | partial | Core | number_theory/core.py:integer_nth_root | `C08_integer_nth_root_partial`, `C08_integer_nth_root_two`, `C08_integer_nth_root_violation`, `C08_integer_nth_root_error` | Proved for every exponent except 2; for n = 2 the call is integer_sqrt, which can be one too large (C09). |
| C09 | integer_sqrt is the exact floor square root | partial | Core | number_theory/core.py:integer_sqrt | `C09_integer_sqrt_partial`, `C09_integer_sqrt_bounds`, `C09_integer_sqrt_violation`, `C09_integer_sqrt_error` | False in the code on part of [2^52, 2^60] because of int(n**0.5); first failing input is 67108865^2 - 1. Exact below it and above 2^60; never below the root and at most one above in between; exact on perfect squares. |
| C10 | chinese solves systems of congruences | partial | Core | number_theory/core.py:chinese | `C10_chinese_partial`, `C10_chinese_error`, `C10_chinese_single`, `C10_chinese_violation` | A single congruence is returned unreduced; everything else proved. |
| C11 | preconditioned CRT agrees with chinese | proved | Core | number_theory/core.py:crt_preconditioning_data, number_theory/core.py:chinese_preconditioned | `C11_chinese_preconditioned` |  |
| C12 | jacobi_symbol is the Jacobi symbol | proved | Core | number_theory/core.py:jacobi_symbol | `C12_jacobi_symbol`, `C12_jacobi_symbol_prime` |  |
| C13 | valuation is the exact exponent | partial | Core | number_theory/core.py:valuation | `C13_valuation_partial`, `C13_valuation_violation` | Returns 0 for every negative n; proved for positive n. |
| C14 | is_square and is_power classify exactly | proved | Primality | number_theory/classification.py:is_square, number_theory/classification.py:is_power | `C14_is_square`, `C14_is_square_factored`, `C14_is_square_factored_negative`, `C14_is_power`, `C14_is_power_small`, `C14_is_power_k`, `C14_is_power_factored`, `C14_is_power_k_factored`, `C14_is_factorial` | is_square(0) returns 0, which Python treats as falsy. is_power(1) returns False: 1 has no maximal exponent. |
| C15 | probable prime tests never reject a prime | proved | Primality | number_theory/primes/primality.py:miller_rabin, number_theory/primes/primality.py:is_probable_prime, number_theory/primes/primality.py:solovay_strassen | `C15_miller_rabin_prime`, `C15_miller_rabin_exact`, `C15_is_probable_prime`, `C15_miller_rabin_deterministic`, `C15_solovay_strassen`, `C15_lucas_lehmer`, `C15_lucas_lehmer_violation` | Also lucas_lehmer, exact for p >= 3 and wrong at p = 2. |
| C16 | is_prime decides primality | proved | Primality | number_theory/primes/primality.py:is_prime, number_theory/factorization/algorithms.py:trial_division | `C16_is_prime`, `C16_is_prime_real`, `C16_random_prime`, `primeList_isPrimeTable` |  |
| C17 | next_prime returns the least larger prime | proved | Primality | number_theory/primes/primality.py:next_prime | `C17_next_prime`, `C17_next_prime_nonpositive`, `C17_next_probable_prime` | For n <= 0 (outside the stated domain) the code returns 3. |
| C18 | every prime sieve returns exactly the primes up to n | partial | Sieves | number_theory/primes/sieves.py | `C18_primesUpTo`, `C18_eratosthenes1`, `C18_eratosthenes2`, `C18_luo`, `C18_pritchard`, `C18_chartres`, `C18_primes`, `C18_primes_real`, `C18_primes_first_n_partial` | All six sieves are proved for every integer n. primes_first_n uses a float estimate of the n-th prime (line 87), which is a parameter: the result is proved to consist of the smallest primes, and to have n entries when the estimate is large enough. |
| C19 | linear_congruence returns the complete solution set | proved | ZnArithmetic | number_theory/zn_arithmetic.py:linear_congruence | `C19_linear_congruence` |  |
| C20 | sqrts_mod_p returns all square roots modulo a prime | proved | SquareRoots | number_theory/zn_arithmetic.py:sqrts_mod_p | `C20_sqrts_mod_p`, `C20_sqrts_mod_p_total`, `C20_sqrts_mod_p_error`, `C20_nonresidue_exists` | Random choices are a stream; the call ends whenever p % 8 != 1 or the stream contains a nonresidue (such residues exist). |
| C21 | sqrts_mod_n returns all square roots modulo n | proved | SquareRoots | number_theory/zn_arithmetic.py:sqrts_mod_n, number_theory/zn_arithmetic.py:_sqrts_mod_pk, number_theory/zn_arithmetic.py:_quadratic_lift | `C21_sqrts_mod_n`, `C21_sqrts_mod_n_total`, `C21_sqrts_mod_pk`, `C21_quadratic_lift`, `C21_sqrts_mod_n_one` | n = 1 is outside the domain and raises IndexError. The docstring example for 11**3*23**3 lists the roots modulo 11**4*23**3. |
| C22 | quadratic_congruence returns all roots of a quadratic modulo n | proved | SquareRoots | number_theory/zn_arithmetic.py:quadratic_congruence | `C22_quadratic_congruence`, `C22_quadratic_congruence_total`, `C22_quadratic_congruence_zero` | Factorizations of n and of a1*n are arguments assumed correct. With a = 0, outside the domain, the call is proved never to end. |
| C23 | primitive_root and is_primitive_root | proved | ZnArithmetic | number_theory/zn_arithmetic.py:is_primitive_root, number_theory/zn_arithmetic.py:primitive_root | `C23_is_primitive_root`, `C23_primitive_root` | Factorizations of n and of euler_phi(n) are arguments assumed correct. primitive_root(1) raises IndexError (example). |
| C24 | nth roots of 1 and -1 modulo p | proved | ZnArithmetic | number_theory/zn_arithmetic.py:nth_roots_of_unity_mod_p, number_theory/zn_arithmetic.py:nth_roots_of_minus1_mod_p | `C24_nth_roots_of_unity`, `C24_nth_roots_of_minus1` | The primitive root g is an argument, as in the API; the default is primitive_root(p), covered by C23. |
| C25 | discrete_log is sound and complete | proved | ZnArithmetic | number_theory/zn_arithmetic.py:discrete_log | `C25_discrete_log`, `C25_discrete_log_not_coprime` | Moduli p >= 1. Also proved: a solution returned in the coprime case is positive. In the non-coprime case a solution can be missed (witness). |
| C26 | multiplicative_order is the exact order | proved | ZnArithmetic | number_theory/zn_arithmetic.py:multiplicative_order | `C26_multiplicative_order`, `C26_multiplicative_order_one` | n = 1 is outside the domain and returns None. |
| C27 | factor returns the prime factorization | partial | Factorization | number_theory/factorization/factorization.py:factor | `C27_factor_one_large_partial`, `C27_factor_real_one_large_partial`, `C27_factor_real_partial`, `C27_factor_small_partial`, `C27_factor_partial`, `C27_factor_zero`, `C27_factor_violation` | Fully proved (with termination) for n != 0 with at most one prime factor above 999983, in particular for \|n\| < 999984^2. Beyond that, if the call returns, everything but primality of the large keys is proved for all random choices; primality is false: factor(341550071728321) returns a composite as prime. pollard_rho_brent always returns (C137), and factor returns with probability one (C147). |
| C28 | divisor enumeration is complete | proved | Factorization | number_theory/factorization/factorization.py:divisors, number_theory/factorization/factorization.py:xdivisors, number_theory/factorization/factorization.py:prime_divisors, number_theory/factorization/factorization.py:factor_back | `C28_factor_back`, `C28_factor_back_factor`, `C28_xdivisors`, `C28_divisors`, `C28_prime_divisors`, `C28_divisor_pairs` | The factorization is an argument; prime_divisors keeps its order, which is increasing for the output of factor. |
| C29 | arithmetic functions match their number-theoretic definitions | proved | ArithFunctions | number_theory/arithmetic_functions/functions.py:euler_phi, number_theory/arithmetic_functions/functions.py:moebius_mu, number_theory/arithmetic_functions/functions.py:divisor_tau, number_theory/arithmetic_functions/functions.py:divisor_sigma | `C29_euler_phi`, `C29_moebius_mu`, `C29_divisor_tau`, `C29_divisor_sigma`, `C29_validate_input` |  |
| C30 | carmichael_lambda is the universal exponent | proved | ArithFunctions | number_theory/arithmetic_functions/functions.py:carmichael_lambda | `C30_carmichael_lambda`, `C30_carmichael_lambda_error`, `C30_carmichael_lambda_unit_factorization` | Given the list [(1, 1)] instead of the integer 1 the code returns 0. |
| C31 | factorial by binary splitting equals n! | proved | ArithFunctions | number_theory/arithmetic_functions/functions.py:factorial | `C31_factorial`, `C31_factorial_error` |  |
| C32 | summatory functions equal the naive sums | proved | Sums | number_theory/arithmetic_functions/sums.py | `C32_euler_phi_sum`, `C32_euler_phi_weighted_sum`, `C32_moebius_sum`, `C32_sigma_sum`, `C32_errors`, `C32_exactSqrt` | int(m**0.5) is a parameter assumed to be the exact floor for the arguments m <= n that occur; C141 proves this up to 2^48. |
| C33 | sieved tables equal pointwise values | proved | Tables | number_theory/arithmetic_functions/sieves.py | `C33_euler_phi_list`, `C33_euler_phi_list_error`, `C33_moebius_list`, `C33_moebius_list_error`, `C33_tau_list`, `C33_tau_list_error`, `C33_sigma_list`, `C33_sigma_list_error` | int(n**0.5) is a parameter; moebius_list needs n < (s+1)^2, tau_list and sigma_list the exact floor; C141 proves both up to 2^48. |
| C34 | factored_range and moebius_range cover a range correctly | proved | Tables | number_theory/primes/sieves.py:factored_range, number_theory/arithmetic_functions/sieves.py:moebius_range, number_theory/arithmetic_functions/sieves.py:factored_range | `C34_moebius_range`, `C34_moebius_range_none`, `C34_primePowers`, `C34_factored_range`, `C34_factored_range_none` | factored_range gives 1 the factorization [(1, 1)]. int(b**0.5) in factored_range is a parameter with b < (s+1)^2, which C141 proves up to 2^48. |
| C35 | prime_count, prime_sum and legendre are exact | partial | PrimeCounting | number_theory/primes/prime_counting.py, number_theory/arithmetic_functions/sums.py | `C35_prime_count_partial`, `C35_prime_sum_partial`, `C35_prime_count_keyError`, `C35_prime_count_violation`, `C35_prime_count_errors`, `C35_legendre`, `C35_prime_sum2`, `C35_prime_sum2_violation`, `C35_pi_table`, `C35_pi_table_error` | legendre is proved for every integer, prime_sum2 for every n >= 1 (prime_sum2(0) = -1 is a proved violation), pi_table for every n >= 2 (UnboundLocalError below). prime_count and prime_sum are proved for every n >= 1 whose integer_sqrt is exact (n < 4503599761588224 or n > 2^60); for n = r^2 - 1 with integer_sqrt(n) = r both raise KeyError, shown with witnesses. prime_count's key 1 holds 1 instead of pi(1) = 0. lmo, meissel, lehmer and lmo_bit are in other properties. |
| C36 | smooth factoring and GF(2) elimination | proved | Factorization | number_theory/factorization/algorithms.py:smooth_factor, number_theory/factorization/algorithms.py:_z2_gaussian_elimination | `C36_smooth_factor`, `C36_smooth_factor_signed`, `C36_z2_elimination` | Also: the elimination returns at least rows - columns vectors, all nonzero. |
| C37 | continued fraction pairs used by cfrac satisfy the congruence | proved | Factorization | number_theory/factorization/algorithms.py:cfrac | `C37_aq_pairs`, `C37_aq_bounds` | The argument n of the generator is k times the number to factor; the congruence mod k*N implies the one mod N. |
| C38 | factoring routines only return genuine divisors | proved | Factorization | number_theory/factorization/algorithms.py | `C38_trial_division_bound`, `C38_trial_division`, `C38_fermat`, `C38_lehman`, `C38_pollard_p_minus_1`, `C38_pollard_rho`, `C38_pollard_rho_brent` |  |
| C39 | pell_fundamental_solution solves Pell's equation | partial | ContinuedFractions | number_theory/diophantine_equations/pell.py:pell_fundamental_solution, number_theory/continued_fractions.py:QuadraticIrrational | `C39_pell_fundamental_partial`, `C39_pell_negative_partial`, `C39_pell_sound`, `C39_pell_error`, `C39_pell_violation` | Proved for every non-square D at which integer_sqrt is right, in particular all D below 4503599761588224 and above 2^60: termination, least positive solution, and for -1 ValueError exactly when there is no solution. Every returned pair solves the equation for all D. False where integer_sqrt is one too large: for D = 1152921502459363327 the returned pair is negative. |
| C40 | QuadraticIrrational continued fraction of sqrt d is periodic and correct | partial | ContinuedFractions | number_theory/continued_fractions.py:QuadraticIrrational._initialize_sqrt, number_theory/continued_fractions.py:QuadraticIrrational.partial_quotients, number_theory/continued_fractions.py:QuadraticIrrational.convergents | `C40_partial_quotients_partial`, `C40_convergents_partial`, `C40_valueError`, `C40_partial_quotients_violation`, `C40_diverges_violation` | Proved for every non-square d at which integer_sqrt is right: termination, the partial quotients, least period, palindrome, convergents in lowest terms. ValueError exactly for squares and negative numbers, for all d. Where integer_sqrt is one too large the expansion is wrong (d = 67108865^2-1) or the constructor runs forever (d = 1152921498164396037). |
| C41 | UnionFind maintains the partition | partial | UnionFind | data_structures/unionfind.py:UnionFind | `C41_unionfind_partial`, `C41_unionfind_keyError`, `C41_unionfind_violation`, `C41_unionfind_cycle_violation` | Proved for every history in which union is applied to elements just looked up (as kruskal does) or to the names returned by find (as cheriton_tarjan does). For arbitrary union calls the property is false because union reads parent[x] instead of find(x): proved witnesses of a lost union and of a pointer cycle on which find never returns. |
| C42 | NamedUnionFind keeps names and members | partial | UnionFind | data_structures/unionfind.py:NamedUnionFind | `C42_named_unionfind_partial`, `C42_named_unionfind_keyError`, `C42_named_unionfind_violation` | Proved for every history whose unions name two different existing sets and whose new name is not in use by a third set. Uniting a set with itself makes find diverge (proved witness). |
| C43 | LeftistHeap is a priority queue | partial | LeftistHeap | data_structures/heaps.py:LeftistHeap | `C43_leftist_heap_partial`, `C43_leftist_shape`, `C43_leftist_init_violation` | For every history of constructions from two or more values, inserts, delete_mins and merges the heap content, find_min, delete_min and iteration order are those of the multiset. Partial because the constructor raises UnboundLocalError for fewer than two values (proved). |
| C44 | PairingHeap is a priority queue with decrease_key | proved | PairingHeap | data_structures/heaps.py:PairingHeap | `C44_values`, `C44_insert`, `C44_insert_values`, `C44_decrease_key`, `C44_decrease_key_error`, `C44_delete_min`, `C44_restrictions` | The pointers of the nodes are modelled one attribute assignment at a time; keys from any linear order. C44_restrictions shows that inserting a value twice makes a later delete_min raise KeyError and that decrease_key accepts larger keys and then returns wrong minima. |
| C45 | BITSieve counts unmarked positions | proved | BitSieve | data_structures/bit_sieve.py | `C45_bit_sieve`, `C45_bit_sieve_array`, `C45_bit_sieve_zero` | Both classes, any sequence of mark_multiples calls, all m including the error beyond the size. |
| C46 | polynomial and power series products are the true product | proved | Polynomials | algebra/polynomials/algorithms.py, algebra/power_series/power_series.py | `C46_toPoly`, `C46_list_add_subtract`, `C46_mul`, `C46_ps_mult`, `C46_ps_mult_karatsuba_threshold` | Polynomials are Mathlib polynomials over the integers. The power series products are not truncated; a threshold below 2 makes the Karatsuba version recurse forever (proved). |
| C47 | polynomial powers by the J.C.P. Miller recurrence are exact | partial | Polynomials | algebra/polynomials/algorithms.py:power_jcp, algebra/power_series/power_series.py:ps_power | `C47_power_jcp`, `C47_power_jcp_zero`, `C47_ps_power`, `C47_ps_power_zero`, `C47_polynomial_pow`, `C47_zero_power_violation` | All nonzero polynomials and all exponents; the zero polynomial raises IndexError (proved), hence partial. |
| C48 | power series inversion | proved | Polynomials | algebra/power_series/power_series.py | `C48_ps_invert`, `C48_ps_invert_error` |  |
| C49 | polynomial division identities | proved | Polynomials | algebra/polynomials/polynomials.py | `C49_pseudo_quo_rem`, `C49_quo_rem`, `C49_quo_rem_complete`, `C49_quo_rem_unit`, `C49_quo_rem_degree_violation` | quo_rem satisfies a = q b + r whenever it returns and finds every exact division with remainder; its divisibility test only inspects the leading coefficient, so the remainder can have the degree of the divisor (proved witness). |
| C50 | Polynomial ring operations agree with evaluation | partial | Polynomials | algebra/polynomials/polynomials.py:Polynomial | `C50_ring_operations_partial`, `C50_sub_scalar_violation`, `C50_equality`, `C50_reduced` | Everything except subtracting a number from a polynomial, which adds it (proved). |
| C51 | matrix arithmetic | partial | Matrices, MatrixShapes | algebra/matrices/matrices.py | `C51_add`, `C51_neg`, `C51_sub`, `C51_scale`, `C51_mul_partial`, `C51_mul_raises`, `C51_delete_row`, `C51_delete_col`, `C51_mul_violation`, `C51_add_violation`, `C51_larger_operand`, `C51_smaller_operand` | Sum, difference, negative, multiples for all sizes, product of n by p with p by n. Missing because the code violates it: every product with a non-square result raises IndexError (line 210 swaps the dimensions), proved for all such pairs; a mismatched sum or difference is not rejected (line 108 compares self with itself): for all shapes a larger second operand is cut off, a smaller one raises IndexError. |
| C52 | combinations enumerates every t-subset once | proved | Generation | combinatorics/generation/combinations.py | `C52_combinations`, `C52_number`, `C52_too_many` | Order and completeness for t <= n; with t > n the generator never stops (proved). |
| C53 | n_tuples enumerates every mixed radix tuple once | proved | Generation | combinatorics/generation/tuples.py | `C53_list`, `C53_int`, `C53_bad_radix` | A radix <= 0 makes the generator count forever (proved). |
| C54 | permutation generators list every arrangement once | partial | Generation | combinatorics/generation/permutations.py | `C54_knuth_algorithm_l`, `C54_variations`, `C54_rvariations`, `C54_rvariations_edge`, `C54_phillips_partial`, `C54_phillips_violation` | All four generators; phillips only for lists with two different elements: equal elements are listed twice or raise IndexError (proved). |
| C55 | partition generators are complete | partial | Partitions | combinatorics/generation/partitions.py | `C55_all_partial`, `C55_zero_raises`, `C55_num_parts_partial`, `C55_one_part_raises`, `C55_too_many_parts`, `C55_distinct_partial`, `C55_parts_partial`, `C55_distinct_parts_partial`, `C55_distinct_parts_wrong` | Completeness, uniqueness and order proved for Algorithm P (n >= 1), Algorithm H (2 <= m <= n) and the backtracking search (positive parts without repetition). The claim fails for n = 0 without options (IndexError), num_parts = 1 (IndexError after [n]), num_parts > n (yields []), and distinct with custom parts (the largest part may repeat); these are proved as counterexamples. |
| C56 | counting functions match what they count | partial | Enumeration, StirlingTable | combinatorics/enumeration/enumeration.py | `C56_binomial_partial`, `C56_binomial_outside`, `C56_binomial_wrong`, `C56_multinomial`, `C56_multinomial_error`, `C56_bell_number`, `C56_bell_number_error`, `C56_stirling_wrong`, `C56_stirling_key_error`, `C56_stirling_values`, `C56_stirling_right` | binomial proved for 0 <= k <= n, multinomial and bell_number in full; violated by binomial outside that range (returns 1) and by stirling_number2, whose value for every pair of arguments is determined: right for at most one block and in two further cases only |
| C57 | partition_list gives the partition numbers | partial | Enumeration | combinatorics/enumeration/enumeration.py | `C57_partition_list_partial`, `C57_partition_number_partial`, `C57_exact_index`, `C57_zero_raises` | proved for n >= 1 provided the float expression for the number of pentagonal terms is exact, which C141 proves for n <= 2^40; n = 0 raises IndexError |
| C58 | necklaces counts rotation classes | partial | Enumeration | combinatorics/enumeration/enumeration.py | `C58_necklaces_partial`, `C58_weights_raise` | unconditional for the formula, given that the divisors of n are factored correctly (C146_necklaces_partial is the call with the library's own factor); with weights every call raises TypeError |
| C59 | domino tilings | proved | Tilings | combinatorics/enumeration/enumeration.py | `C59_domino_tilings`, `C59_empty_board` | for every pattern of cache hits; boards without squares raise ValueError |
| C60 | knapsack solvers are optimal and feasible | partial | Knapsack, KnapsackFloat | combinatorics/optimization/knapsack.py | `C60_depth_first`, `C60_negative_weight`, `C60_dynamic_programming`, `C60_dynamic_programming_negative`, `C60_branch_and_bound_feasible`, `C60_branch_and_bound_zero`, `C60_branch_and_bound_partial`, `C60_branch_and_bound_rounded_partial`, `C60_branch_and_bound_rounding_violation`, `C60_branch_and_bound_negative`, `C60_simulated_annealing` | depth_first and dynamic_programming proved in full; branch and bound feasible for every rounding (weights 0 raise ZeroDivisionError), optimal without rounding errors, and with double precision rounding if the values sum up to less than 2^48 and weights and capacity are at most 2^300; with values from 2^53 on the optimum can be lost (proved violation); simulated annealing feasible with the right value for all random choices |
| C61 | exact cover search is sound and complete | proved | ExactCover | combinatorics/optimization/exact_cover.py | `C61_algorithmx`, `C61_key_error`, `C61_number_of_solutions`, `C61_num_bits`, `C61_solutions` | algorithmx / algorithm_dlx for every set iteration order; ExactCoverBinary.number_of_solutions (with its cache) and solutions. Rows are identified by position, so repeated rows count separately; empty rows are never chosen. number_of_solutions and solutions for nonnegative integers. |
| C62 | tour heuristics return tours and depth_first is optimal | partial | Tsp | combinatorics/optimization/tsp.py:depth_first, combinatorics/optimization/tsp.py:branch_and_bound, combinatorics/optimization/tsp.py:farthest_insertion, combinatorics/optimization/tsp.py:two_opt, combinatorics/optimization/tsp.py:steepest_ascent_two_opt, combinatorics/optimization/tsp.py:simulated_annealing_two_opt | `C62_depth_first`, `C62_depth_first_finite`, `C62_branch_and_bound_partial`, `C62_single_point_violation`, `C62_farthest_insertion`, `C62_farthest_edges`, `C62_farthest_insertion_violation`, `C62_two_opt_partial`, `C62_two_opt_violation`, `C62_steepest_ascent_partial`, `C62_steepest_ascent_value`, `C62_steepest_ascent_violation`, `C62_random_two_opt`, `C62_random_two_opt_ends`, `C62_random_two_opt_hangs`, `C62_annealing` | Exact arithmetic. depth_first and branch_and_bound are optimal for two or more points at finite distances, but return an empty list for a single point with the default matrix (violation proved). two_opt needs a symmetric matrix (violation proved otherwise). steepest_ascent_two_opt does not pass the distance matrix to farthest_insertion, so the value is wrong for matrices other than the Euclidean one (violation proved). random_two_opt never ends for three cities or fewer. |
| C63 | graph adjacency stays symmetric | proved | Graph | graphs/graphs.py:Graph | `C63_history`, `C63_symmetric`, `C63_degree`, `C63_neighbors`, `C63_vertices`, `C63_edge_set`, `C63_total_degree`, `C63_complement`, `C63_induced_subgraph`, `C63_induced_key_error`, `C63_remove_neighborhood` | All mutating operations over arbitrary histories, against an abstract graph (vertex set and weight relation); queries, complement, induced subgraph. The file loaders are C124, the matrix views C111; repr is not modelled. |
| C64 | breadth first search visits exactly the reachable vertices in distance order | proved | Traversal | graphs/algorithms/traversal.py | `C64_order`, `C64_reachable`, `C64_queue_order`, `C64_tree`, `C64_not_a_vertex` | Every graph built by Graph operations, every start and every max_depth; also the queue order and breadth_first_search_tree. |
| C65 | depth first search visits exactly the reachable vertices | proved | Traversal | graphs/algorithms/traversal.py | `C65_order`, `C65_max_depth_partial`, `C65_tree`, `C65_not_a_vertex`, `C65_max_depth_misses` | The order is a depth-first order and the tree links to the last earlier neighbour. With max_depth vertices within the depth can be missed (witness proved). |
| C66 | connected components partition the vertices | proved | Traversal | graphs/algorithms/connectivity.py | `C66_components`, `C66_component`, `C66_is_connected` | is_connected is also True for the graph without vertices. |
| C67 | Dijkstra returns shortest distances and paths | proved | Paths | graphs/algorithms/paths.py | `C67_dijkstra`, `C67_iterator`, `C67_not_a_vertex` | Weights in any linearly ordered cancellative commutative monoid; heapq modelled by taking the least tuple. |
| C68 | Bellman-Ford and Floyd-Warshall return shortest distances | partial | Paths | graphs/algorithms/paths.py | `C68_bellman_ford_raises`, `C68_bellman_ford`, `C68_floyd_warshall_raises`, `C68_floyd_warshall_loopless`, `C68_floyd_warshall_partial`, `C68_floyd_warshall_negative_loop_violation` | Complete for bellman_ford. floyd_warshall ignores loops: proved for the graph without loops and for nonnegative weights; a negative loop is not detected (proved violation). |
| C69 | bidirectional Dijkstra agrees with Dijkstra | partial | Paths | graphs/algorithms/paths.py | `C69_bidirectional_partial`, `C69_same_vertex_violation` | Proved for different vertices; from a vertex to itself the result is (inf, []) (proved violation), and inf alone if there is no path. |
| C70 | Prim and Kruskal return minimum spanning trees | proved | SpanningTrees | graphs/algorithms/spanning_trees.py | `C70_prim`, `C70_prim_links`, `C70_prim_root`, `C70_kruskal`, `C70_kruskal_disconnected` | Any weights from a linearly ordered cancellative monoid (negative ones included), any graph built by Graph operations. heapq is modelled as taking the least tuple. kruskal raises IndexError on every graph that is not connected, contrary to its docstring (proved). |
| C71 | greedy and DSATUR colorings are proper | proved | Coloring | graphs/algorithms/coloring.py | `C71_greedy_given`, `C71_greedy_default`, `C71_greedy_passes`, `C71_dsatur`, `C71_dsatur_rule`, `C71_no_vertices`, `C71_greedy_no_pass_violation` | Proper coloring, first fit, bound by the largest degree plus one, second pass never worse, selection rule of dsatur. With passes < 1 and classes=True greedy_sequential returns a color map instead of classes (proved). |
| C72 | maximal clique enumeration is exact | proved | Cliques | graphs/algorithms/cliques.py, graphs/algorithms/independent_sets.py | `C72_bron_kerbosch`, `C72_bron_kerbosch_binary`, `C72_tomita`, `C72_maximal_independent_sets`, `C72_tomita_loop_violation` | Exact for all graphs (bron_kerbosch, bron_kerbosch_binary with lexicographic order, maximal_independent_sets) and for all simple graphs (tomita). With a loop, tomita, which maximal_cliques uses by default, misses cliques: C72_tomita_loop_violation. |
| C73 | maximum clique and independent set searches are exact | partial | MaxCliques | graphs/algorithms/cliques.py:242-718, graphs/algorithms/independent_sets.py:10-65, graphs/algorithms/independent_sets.py:192-217 | `C73_pardalos`, `C73_pardalos_binary`, `C73_ostergard_partial`, `C73_ostergard_binary`, `C73_maximum_weight_clique`, `C73_branch_and_bound`, `C73_maximum_independent_set_partial`, `C73_empty_violation`, `C73_loop_violation`, `C73_negative_weight_violation`, `C73_independent_empty_violation` | Proved for all loop-free graphs with at least one vertex (pardalos and branch_and_bound for all graphs); both ostergard versions and maximum_independent_set raise IndexError on the graph without vertices, and ostergard counts a looped vertex twice |
| C74 | degree sequence recognition | proved | DegreeSequences | graphs/algorithms/degree_sequences.py:is_graphic | `C74_is_graphic` | is_graphic (Havel-Hakimi): never raises, True exactly for degree sequences of simple graphs. The exchange argument is proved in Lemmas/HavelHakimi. |
| C75 | hamiltonian path search is exact | partial | HamiltonianPaths | graphs/algorithms/hamiltonian_paths.py, graphs/algorithms/hamiltonian_paths.py:hamiltonian_paths, graphs/algorithms/hamiltonian_paths.py:number_of_hamiltonian_paths5 | `C75_hamiltonian_paths`, `C75_hamiltonian_paths_con`, `C75_is_connected2`, `C75_number`, `C75_number_bits`, `C75_number_bits_con`, `C75_number5_partial`, `C75_number5_violation`, `C75_number5_con_violation` | All searches and counters proved exact for every graph and set order, except the two inclusion-exclusion counters: number_of_hamiltonian_paths5 is proved for at least two vertices and returns 0 on a single vertex (violation proved); number_of_hamiltonian_paths5_con is wrong already on the path with three vertices (violation proved). |
| C76 | memoisation is transparent | proved | BitSieve | utilities.py:cached_function | `C76_cached_function` | func is a deterministic function that may raise; arguments that compare equal are identified. |
| C77 | three term progression detection | proved | Progressions | number_theory/arithmetic_progressions.py | `C77_found`, `C77_not_found`, `C77_elements` | has_three_term_ap: for every nondecreasing list, the indices returned are increasing and form a progression, and False is returned exactly when there is none. |
| C78 | alphametic pruning is sound | proved | Alphametics | combinatorics/recreational/alphametics.py | `C78_solve`, `C78_empty_word` | solve yields the word values of exactly the assignments that solve the puzzle, each once, for every iteration order of the sets; empty words raise an IndexError. Characters with a meaning in format strings are outside the model. |
| C79 | Fibonacci primitive roots | proved | SquareRoots | number_theory/zn_arithmetic.py:fibonacci_primitive_roots | `C79_fibonacci_primitive_roots`, `C79_total` | The factorization of p - 1 is an argument; the call ends unless the random choices never hit a nonresidue (only for p = 1 mod 8). |
| C80 | prime_range yields the primes of an interval | partial | PrimeRange | number_theory/primes/sieves.py:prime_range | `C80_prime_range_small`, `C80_prime_range_large`, `C80_prime_range_partial`, `C80_prime_range_violation` | As documented the property is false: for b <= 10**7 a prime b is included, for b > 10**7 a prime a <= sqrt(b) is skipped, prime_range(1) yields [2]. The exact behaviour is proved for all inputs; int(b**0.5) is a parameter, exact by C141 up to 2^48. |
| C81 | eta_series and delta_series are Euler's product and its 24th power | proved | Eta | algebra/power_series/power_series.py:eta_series, algebra/power_series/power_series.py:delta_series | `C81_eta_series`, `C81_delta_series`, `C81_zero` | Uses Mathlib's pentagonal number theorem. |
| C82 | r-th powers of the partition generating function | partial | Enumeration | combinatorics/enumeration/enumeration.py:rth_power_partition_number | `C82_rth_power_raises`, `C82_rth_power_partial` | holds for r = 1 and n = 0 only; for every other input IndexError is raised |
| C83 | bipartitions counts partitions of pairs | proved | Enumeration | combinatorics/enumeration/enumeration.py:bipartitions | `C83_bipartitions` |  |
| C84 | triomino tilings | proved | Tilings | combinatorics/enumeration/enumeration.py:triomino_tilings | `C84_triomino_tilings`, `C84_empty_board` | for every pattern of cache hits; boards without squares raise ValueError |
| C85 | domino_tilings counts the domino tilings of a square board | partial | ExactCover | combinatorics/optimization/exact_cover.py:domino_tilings, combinatorics/optimization/exact_cover.py:domino_ints | `C85_domino_tilings_partial`, `C85_single_square` | Holds for all n except n = 1, where the code returns 1 although the single square has no tiling (C85_single_square). |
| C86 | langford_pairings counts Langford pairings up to reversal | proved | ExactCover | combinatorics/optimization/exact_cover.py:langford_pairings, combinatorics/optimization/exact_cover.py:langford_ints | `C86_langford_pairings`, `C86_reversal` | For all n. |
| C87 | extreme degrees and vertex orders of a Graph | proved | Graph | graphs/graphs.py:Graph.maximum_degree, graphs/graphs.py:Graph.minimum_degree_vertex, graphs/graphs.py:Graph.vertices | `C87_extreme_degrees`, `C87_no_vertices`, `C87_induced_order`, `C87_degree_order` | Over all histories of operations and all set iteration orders. |
| C88 | named graphs are what they claim to be | partial | Graph | graphs/graphs.py:complete_graph, graphs/graphs.py:coprime_pairs_graph, graphs/graphs.py:grid_graph, graphs/graphs.py:random_graph, graphs/graphs.py:petersen_graph | `C88_complete_graph_partial`, `C88_complete_graph_one`, `C88_random_graph`, `C88_coprime_pairs_graph_partial`, `C88_coprime_pairs_graph_one`, `C88_grid_graph_partial`, `C88_grid_graph_one`, `C88_petersen_graph` | Exact for every n other than 1; for n = 1 complete_graph, coprime_pairs_graph and grid_graph return a graph with no vertices (proved). odd_graph is C123. |
| C89 | longest_ap returns exactly the longest progressions | partial | Progressions | number_theory/arithmetic_progressions.py:longest_ap | `C89_longest_partial`, `C89_pairs_violation` | Proved whenever the list contains a progression of at least three members. Missing, because false: when the longest progressions are pairs only some of them are returned (C89_pairs_violation). |
| C90 | the Erdos-Gallai test | partial | DegreeSequences | graphs/algorithms/degree_sequences.py:is_graphic_erdos_gallai | `C90_erdos_gallai_partial`, `C90_erdos_gallai_accepts`, `C90_erdos_gallai_violation` | Exact for nonnegative integers with an even sum (both directions of the theorem of Erdos and Gallai are proved); every degree sequence is accepted. Missing, because false: the code checks neither parity nor sign ([1, 1, 1] and [-2] are accepted). |
| C91 | determinant of a matrix | partial | Matrices, MatrixShapes | algebra/matrices/matrices.py:determinant | `C91_determinant_partial`, `C91_determinant_regular`, `C91_one_by_one`, `C91_not_square`, `C91_pivot_violation`, `C91_mutation_violation`, `C91_two_by_two`, `C91_two_by_two_wrong` | Returns the determinant whenever the leading principal minors of smaller order do not vanish; for n >= 2 always the determinant or 0, never an exception. The full claim is false: [[0,1],[1,0]] gives 0, [[0]] raises UnboundLocalError, and the entries are changed, so a second call gives another value. For MatrixQQ (Fractions) see C144. |
| C92 | branch and bound coloring returns the chromatic number | partial | Coloring | graphs/algorithms/coloring.py:branch_and_bound | `C92_number`, `C92_coloring_partial`, `C92_complete_violation`, `C92_no_vertices` | The number is always the chromatic number. The coloring is an optimal one unless all different vertices are adjacent; on complete graphs no vertex is colored (proved), and the empty graph raises ValueError. Missing: nothing provable, the claim is false on complete graphs. |
| C93 | independent set heuristics return independent sets | partial | MaxCliques | graphs/algorithms/independent_sets.py:68-119, graphs/algorithms/independent_sets.py:122-189 | `C93_greedy`, `C93_culberson_partial`, `C93_culberson_violation` | greedy: proved in full; culberson returns an independent set, but not a maximal one: on a graph without edges it returns the empty set |
| C94 | General quadratic irrationals have the right continued fraction | partial | QuadraticCF | number_theory/continued_fractions.py:_initialize_quadratic | `C94_quadratic_partial`, `C94_quadratic_error`, `C94_quadratic_violation` | Proved for q > 0, a conjugate below the integer part, and either q \| d - p^2 or (scaled triple) q not dividing p^2, with integer_sqrt right as in C40. The claim is false in general: wrong expansions for (d, p, q) = (2, 10, 7), (2, 1, -1) and (7, 10, 4). |
| C95 | The solutions of the generalised Pell equation are complete | partial | Pell | number_theory/diophantine_equations/pell.py:pell_minimal_positive_solutions, number_theory/diophantine_equations/pell.py:pell_solution_generator | `C95_minimal_sound`, `C95_generator_sound`, `C95_minimal_partial`, `C95_generator_partial`, `C95_minimal_violation`, `C95_error` | Soundness for all D and N. Completeness for N = 1 or N not a square, given the right integer part of the floating point bound (C141 proves it up to 2^48) and of integer_sqrt. For a square N > 1 the claim is false: the class of (sqrt N, 0) is lost, e.g. no solution is listed for x^2 - 2y^2 = 4. |
| C96 | dijkstra_pairing_heap computes the distances | proved | DijkstraVariants | graphs/algorithms/paths.py:dijkstra_pairing_heap | `C96_pairing_heap`, `C96_not_a_vertex`, `C96_agrees_with_dijkstra` | On the pointer model of PairingHeap; weights in any linearly ordered cancellative commutative monoid. |
| C97 | dijkstra_buckets returns exactly for natural weights that can be reached | proved | DijkstraVariants | graphs/algorithms/paths.py:dijkstra_buckets | `C97_buckets_returns`, `C97_buckets`, `C97_not_integral`, `C97_not_a_vertex`, `C97_unreached_weight_violation` | isinstance(x, int) is the parameter asInt. The documentation's promise of a ValueError for any non-integral edge is violated for edges that are not reached (proved). |
| C98 | euler_phi_inverse returns exactly the solutions of phi(k) = n, in increasing order | proved | InverseFunctions | number_theory/arithmetic_functions/inverse_functions.py:13-100 | `C98_factorization`, `C98_factorization_one`, `C98_factorization_error`, `C98_integer`, `C98_integer_real_partial`, `C98_nonpositive`, `C98_unsorted_violation` | C98_integer: for every n >= 1 for which factor returns the factorization (C27), the result is the strictly increasing list of all k with phi(k) = n; C98_integer_real_partial instantiates it with the library's own table for n with at most one prime factor above 999983. A factorization given in another order loses solutions (C98_unsorted_violation). |
| C99 | inverse_phi returns exactly the solutions of phi(k) = n | partial | InverseFunctions | number_theory/arithmetic_functions/inverse_functions.py:103-125 | `C99_inverse_phi_partial`, `C99_terminates`, `C99_violation`, `C99_one_violation` | A returned list is right for n >= 2 and the call always terminates, but inverse_phi(8) raises RuntimeError because phi_cache gets a key while its keys are iterated, and inverse_phi(1) misses 1. |
| C100 | largest_divisor returns the largest divisor of n not above b | partial | NtMisc | number_theory/misc.py:9-72 | `C100_largest_divisor_partial`, `C100_violation`, `C100_zero` | Right when b divides n; every other call raises AttributeError, because rosemary.number_theory.factorization is a package without an attribute factor. |
| C101 | maximize_divisors finds the maximal number of divisors | proved | NtMisc | number_theory/misc.py:75-136 | `C101_maximize_divisors`, `C101_maximize_divisors_real`, `C101_nonpositive` | Optimality over all m <= B, for every B below the product of the prime table; with the library's table that covers B < 2^959980 (Chebyshev's bound). |
| C102 | bernoulli_list returns the Bernoulli numbers | partial | NtMisc | number_theory/misc.py:139-175 | `C102_bernoulli_list`, `C102_zero_violation` | Proved for every n >= 1; bernoulli_list(0) raises IndexError. |
| C103 | Meissel's method and the Lagarias-Miller-Odlyzko method count the primes | proved | MeisselLehmer | number_theory/primes/prime_counting.py | `C103_meissel`, `C103_lmo` | lmo unconditionally; meissel for float roots whose integer parts are exact up to n (C141: for n <= 2^43) |
| C104 | Lehmer's method counts the primes | partial | Lehmer | number_theory/primes/prime_counting.py | `C104_lehmer_partial`, `C104_lehmer_violation`, `C104_lehmer_fourth_powers`, `C104_lehmer_witness` | the claim is false: lehmer(p**4-1) is too small for every prime p >= 37; exactly when it is right is characterised (partial: when a prime lies between n//p and n^(3/4); violation: otherwise) |
| C105 | distance_network_heuristic returns a Steiner tree within twice the optimum | proved | SteinerTrees | graphs/algorithms/steiner_trees.py | `C105_distance_network`, `C105_disconnected`, `C105_errors` | All set iteration orders are covered by a parameter. Terminals outside the component of the first one are dropped silently, and fewer than two terminals in it raise StopIteration (C105_disconnected, C105_errors). |
| C106 | minimum_cost_paths_heuristic returns a Steiner tree within twice the optimum | proved | SteinerTrees, SteinerOrder | graphs/algorithms/steiner_trees.py | `C106_minimum_cost_paths`, `C106_errors`, `C106_disconnected`, `C106_zero_weights`, `C106_best_root`, `C106_order` | The documentation asks for positive weights; with zero weights the loop may not end (C106_zero_weights). Terminals in several components: UnboundLocalError or an endless loop. |
| C107 | cheriton_tarjan returns a minimum spanning tree | partial | CheritonTarjan | graphs/algorithms/spanning_trees.py | `C107_cheriton_tarjan_partial`, `C107_small_degree_violation`, `C107_disconnected_violation`, `C107_no_vertices` | Proved for connected graphs in which every vertex has two neighbours, for all outcomes of choice. The claim is false otherwise: a vertex with fewer than two neighbours makes LeftistHeap raise UnboundLocalError, and graphs that are not connected raise TypeError; both proved in general. |
| C108 | Exact coloring by Korman's algorithm | partial | Korman | graphs/algorithms/coloring.py:486-632, graphs/algorithms/coloring.py:635-699 | `C108_exact_coloring_partial`, `C108_isolated_error_violation`, `C108_isolated_endless_violation`, `C108_no_vertices` | Proved for graphs without loops in which every vertex has a neighbour, and for complete graphs. False in the presence of isolated vertices: they are never chosen (coloring.py:570-581), so the search raises UnboundLocalError (proved for all graphs whose non-isolated vertices form a clique) or does not end (proved for the path of three vertices plus an isolated vertex, for every set order). Graphs with loops are not treated. |
| C109 | maxis colors by extracting independent sets | partial | Maxis | graphs/algorithms/coloring.py:202-336 | `C109_maxis_partial`, `C109_maxis_zero_limit`, `C109_edgeless_error_violation`, `C109_edgeless_endless_violation`, `C109_negative_limit_violation` | proved when the vertices that remain for exact_coloring have neighbors among them (or none remain), and for color_limit=0 without restriction; false otherwise: UnboundLocalError or an endless loop on graphs without edges |
| C110 | Adjacency, degree and Laplacian matrix, density | proved | GraphMatrices | graphs/graphs.py:398-424, graphs/graphs.py:735-778, graphs/graphs.py:836-939 | `C110_adjacency`, `C110_degrees`, `C110_laplacian`, `C110_laplacian_sums`, `C110_no_vertices`, `C110_density`, `C110_density_complement`, `C110_remove_edge` | Matrices are compared entry by entry with Mathlib matrices indexed by the rank of the vertices in sorted order. density is the exact quotient before rounding to a float. remove_edge for an edge given as two vertices; deepcopy is the identity on values. |
| C111 | The Laplacian matrix counts spanning trees | partial | GraphMatrices | graphs/graphs.py:909-939, matrices/matrices.py | `C111_spanning_trees_partial`, `C111_minor`, `C111_two_vertices_violation` | The matrix tree theorem is proved (Lemmas/MatrixTree, Lemmas/TreeCount) and applied to the elimination of Matrix.determinant: for at least three vertices the result is the number of spanning trees, including graphs with loops and graphs that are not connected. Missing: two vertices without an edge raise UnboundLocalError (violation proved). |
| C112 | The Sudoku solver | proved | Sudoku | combinatorics/optimization/exact_cover.py:4-60, combinatorics/optimization/exact_cover.py:252-308 | `C112_sudoku`, `C112_errors` | The three-character strings of the constraint sets are triples; int(d) for ASCII characters. The iteration orders of sets of row numbers and of sets of strings are parameters. |
| C113 | Latin squares as exact covers | proved | LatinSquares | combinatorics/optimization/exact_cover.py:129-171, combinatorics/optimization/exact_cover.py:230-249 | `C113_latin_squares` |  |
| C114 | farey finds the least solution of x^2 - D y^2 = N for small N | partial | Farey | number_theory/diophantine_equations/pell.py:311-328 | `C114_farey_sound`, `C114_farey_partial`, `C114_farey_one`, `C114_farey_fundamental`, `C114_farey_large`, `C114_farey_endless_violation` | farey: soundness for all inputs; least solution or endless loop for 0 < N <= 2 sqrt(D), -sqrt(D) <= N <= 0; complete for N = 1. For \|N\| > D it never returns although solutions may exist (violation 3^2 - 2*1^2 = 7). |
| C115 | pell_small yields exactly the coprime solutions | partial | PellSmall | number_theory/diophantine_equations/pell.py:167-177 | `C115_pell_small_partial`, `C115_pell_small_error`, `C115_pell_small_empty`, `C115_pell_small_violation` | pell_small: exact for N^2 < D unless integer_sqrt(D) is too large (C09). The guard D*D <= N lets larger N through, for which solutions are missed. |
| C116 | _pell_small_minimal_positive_solutions gives one solution per class | partial | PellSmall | number_theory/diophantine_equations/pell.py:180-205 | `C116_small_minimal_partial`, `C116_small_minimal_classes_partial`, `C116_small_minimal_violation` | one solution per class for 0 < N^2 < D unless integer_sqrt(D) is too large; the class of g for N = g^2 is missing from the result, in particular the result for N = 1 lacks the fundamental solution. |
| C117 | content and primitive_part of a polynomial | partial | PolyGcd | algebra/polynomials/polynomials.py:237-252, algebra/polynomials/polynomials.py:410-436 | `C117_content_partial`, `C117_primitive_part_partial`, `C117_constant_violation`, `C117_ne` | Proved for all polynomials but negative constants (and, for primitive_part, zero), where the claim is false: content([-c]) is -c and the primitive part of zero raises. |
| C118 | Polynomial.gcd returns a greatest common divisor | partial | PolyGcd | algebra/polynomials/polynomials.py:374-409 | `C118_gcd_divides_partial`, `C118_gcd_coprime_partial`, `C118_gcd_violation`, `C118_gcd_wrong_value`, `C118_gcd_coprime_violation`, `C118_gcd_swap` | gcd is right when the smaller operand divides a multiple of the larger one, and for coprime operands if the smaller has degree at most 2; with a proper common divisor of positive degree the call raises AttributeError (proved). For a second operand of degree 3 the claim is false even for coprime operands (AttributeError) and 1 is returned for polynomials with the common factor x - 1. Missing: which operands of degree 3 or more are treated correctly. |
| C119 | lmo_bit counts the primes | partial | LmoBit | number_theory/primes/prime_counting.py:302-352 | `C119_lmo_bit_partial`, `C119_lmo_bit_violation` | Proved for x >= 8 with exact integer parts of the float roots (C141: all non-cubes up to 2^21); false at x = 27 (10 instead of 9), because the exponent 0.33333333333333 is below one third. |
| C120 | cfrac returns a proper divisor | partial | Cfrac | number_theory/factorization/algorithms.py:436-567, number_theory/factorization/algorithms.py:810-857 | `C120_cfrac_sound`, `C120_cfrac_returns_partial`, `C120_cfrac_congruence`, `C120_multiplier`, `C120_cfrac_square_violation`, `C120_cfrac_none_violation` | Every number returned is a proper divisor of a composite n; the call ends without exception if kn is not a square and integer_sqrt is exact there; the congruence and the choice of the multiplier are proved. The full claim is false: ZeroDivisionError whenever kn is a square (every n = m**2, and n = 319), and cfrac(187) is None. The float smoothness bound is a parameter. |
| C121 | is_power2 finds every perfect power | proved | Misc | number_theory/classification.py:109-140 | `C121_is_power2`, `C121_is_power2_small` | Complete: perfect powers with the least exponent, and False otherwise; below 2 the answer is False. |
| C122 | primorial is the product of the first n primes | partial | Misc | number_theory/arithmetic_functions/functions.py:508-540 | `C122_primorial_partial`, `C122_primorial_error` | The float estimate is a parameter; missing is that it is large enough (as for C18). |
| C123 | odd_graph is the Kneser graph on (k-1)-subsets | partial | Misc | graphs/graphs.py:1204-1251 | `C123_odd_graph_strings`, `C123_odd_graph_partial`, `C123_odd_graph_violation`, `C123_odd_graph_error` | True for 1 <= k <= 5; proved false for every k >= 6, where some vertex repeats a digit. |
| C124 | The graph loaders read exactly the edges in the file | proved | Misc | graphs/graphs.py:1109-1169 | `C124_load_graph`, `C124_load_graph_error`, `C124_load_dimacs_graph`, `C124_load_dimacs_graph_error` | Lines are token lists and int() is a parameter; opening the file is not modelled. |
| C125 | BITSieve.update rebuilds all block sums | proved | Misc | data_structures/bit_sieve.py:28-35 | `C125_update` | For every size and all integer values. |
| C126 | Reflected matrix operators and item access | partial | Misc | algebra/matrices/matrices.py:76-90, algebra/matrices/matrices.py:122-258 | `C126_radd_rsub`, `C126_rmul_partial`, `C126_rmul_violation`, `C126_getitem`, `C126_setitem`, `C126_item_error` | __rmul__ gives self * other instead of other * self: proved with a witness. |
| C127 | The genetic TSP's two_opt returns a tour with its length, not longer, and optimal for exchanges to near neighbours | partial | GeneticTsp | combinatorics/optimization/genetic_tsp.py:22-117 | `C127_two_opt_partial`, `C127_two_opt_small`, `C127_two_opt_violation` | Termination, tour, length and neighbour optimality proved; full 2-opt optimality is false, with a Euclidean witness. |
| C128 | Children in the genetic TSP are tours built from both parents | proved | GeneticTsp | combinatorics/optimization/genetic_tsp.py:119-144 | `C128_mgkrec`, `C128_mgkrec_error` |  |
| C129 | The genetic TSP's solve returns the best cost seen, but not the tour that has it | partial | GeneticTsp | combinatorics/optimization/genetic_tsp.py:146-173 | `C129_solve_partial`, `C129_solve_empty`, `C129_solve_few_points`, `C129_solve_violation` | The cost is proved; that the second result is the tour of this cost is false after an improving generation, with a witness. |
| C130 | gabow yields spanning trees in order of weight, each once, none skipped | proved | Gabow | graphs/algorithms/spanning_trees.py:294-395 | `C130_gabow`, `C130_gabow_all`, `C130_gabow_empty`, `C130_gabow_disconnected` | The comparison of heap entries is a parameter that compares the weights first; C130_gabow_all assumes in addition that it never raises, as in Python 2. |
| C131 | Under Python 3 gabow cannot be run to its end on a graph with three spanning trees | proved | Gabow | graphs/algorithms/spanning_trees.py:294-395 | `C131_type_error` | With entryLt, the transcription of Python 3's tuple comparison of the heap entries. |
| C132 | maximal_cliques and maximum_clique give the same answer with every supported algorithm | proved | Dispatch | graphs/algorithms/cliques.py:197-234, graphs/algorithms/cliques.py:583-618 | `C132_maximal_cliques`, `C132_maximum_clique`, `C132_same_size` | Composed from C72 and C73 for the graphs without loops; with loops see the violations there. |
| C133 | The default distance matrix is symmetric and gives shortest round trips in the plane | proved | Dispatch | combinatorics/optimization/tsp.py:5-19, combinatorics/optimization/tsp.py:29-150 | `C133_euclidean_distance_matrix`, `C133_shortest_tour` | The second part in exact real arithmetic. |
| C134 | PellEquation accepts exactly the positive non-squares | proved | Dispatch | number_theory/diophantine_equations/pell.py:7-12 | `C134_pell_equation` | resolvent_solution (pell.py:17-89) is not modelled: its first line reads the undefined name D. |
| C135 | fermat returns the divisor nearest the square root | partial | Fermat | number_theory/factorization/algorithms.py:98-146 | `C135_fermat_partial`, `C135_fermat_even`, `C135_fermat_violation`, `C135_fermat_three` | The docstring's primality claim fails: C135_fermat_violation shows that the square of every odd prime is returned unchanged, C135_fermat_three that fermat(3) = 1. C135_fermat_partial says exactly what is returned, for odd n >= 5 below 4503599761588224 or above 2^60 (where integer_sqrt is exact, see C09). |
| C136 | lehman finds a factor of every composite number | partial | Fermat | number_theory/factorization/algorithms.py:149-215 | `C136_lehman_partial`, `C136_lehman_small`, `C136_lehman_violation` | The docstring's claim fails: lehman(71441) = 71441 = 199 * 359 (also 4 and 6), C136_lehman_violation. The loop over a stops at once when the floor square root of 4kn is already congruent to r, although a*a < 4kn. C136_lehman_partial proves, through Lehman's theorem, that this is the only way a factor is missed; C136_lehman_small that the claim holds for all n < 35937 other than 4 and 6. |
| C137 | Pollard's rho methods terminate | proved | Rho, Pollard | number_theory/factorization/algorithms.py:285-433 | `C137_pollard_rho`, `C137_pollard_rho_brent`, `C137_pollard_calls`, `C137_pollard_error` | For all numbers drawn. The divisor may be n itself. |
| C138 | pollard_p_minus_1 succeeds on smooth p - 1 | proved | Pollard | number_theory/factorization/algorithms.py:218-282 | `C138_pollard_p_minus_1` | The divisor may be n itself; 13 is the base of the powers, an example shows that it must be excluded. |
| C139 | The arithmetic functions called with an integer alone are exact if at most one prime factor exceeds 999983 | partial | IntegerCalls | number_theory/arithmetic_functions/functions.py, number_theory/factorization/factorization.py, number_theory/primitive_roots.py | `C139_multiplicative_partial`, `C139_multiplicative_error`, `C139_carmichael_partial`, `C139_divisors_partial`, `C139_primitive_root_partial`, `C139_sqrts_mod_n_partial`, `C139_violation` | End to end, with the model's own factor and the real prime table. Exact for n with at most one prime factor above 999983 (OneLarge); beyond that the results can be wrong, C139_violation gives the witness 341550071728321. |
| C140 | Power detection in factor and the unitary divisors | partial | IntegerCalls | number_theory/factorization/factorization.py:19, number_theory/factorization/factorization.py:328 | `C140_factor_power_partial`, `C140_factor_power_negative`, `C140_unitary_divisors`, `C140_unitary_divisors_call`, `C140_unitary_divisors_one`, `C140_unitary_divisors_factorization`, `C140_unitary_divisors_given`, `C140_unitary_divisors_negative` | Exact for powers of integers with at most one prime factor above 999983 (beyond it C27_factor_violation applies). unitary_divisors is exact for n >= 2; for n = 1 it repeats 1, for negative n it contains n itself, without n it always raises, and factor with power detection rejects negative integers. |
| C141 | Floating point roots do not spoil the results | partial | Floats | number_theory/arithmetic_functions/sieves.py:91, number_theory/arithmetic_functions/sums.py:51, number_theory/primes/prime_counting.py:82-83, number_theory/primes/prime_counting.py:303-309, combinatorics/enumeration/enumeration.py:172 | `C141_int_sqrt`, `C141_half_sqrt`, `C141_half_cbrt`, `C141_pentagonal`, `C141_pell_bound`, `C141_lmo_roots`, `C141_tables`, `C141_sums`, `C141_prime_counting`, `C141_partition_list`, `C141_prime_range`, `C141_pell`, `C141_lmo_bit_partial`, `C141_lmo_bit_violation` | Proved for every faithful rounding (all rounding modes; operations with an error below one unit in the last place). Missing: lmo_bit at cubes, where the claim is false; lmo_bit(27) is 10 instead of 9 for every faithful rounding. |
| C142 | Matrices do not share their rows | partial | MatrixObjects | algebra/matrices/matrices.py:33-43, algebra/matrices/matrices.py:88-340 | `C142_arithmetic`, `C142_product`, `C142_delete_col`, `C142_disjoint`, `C142_determinant`, `C142_delete_row_violation`, `C142_delete_row_determinant`, `C142_constructor_violation` | True for sums, differences, negatives, multiples, products and delete_col. False for delete_row (A.delete_row(2).determinant() changes A) and for two matrices constructed from the same rows. |
| C143 | Leftist heaps are independent objects | partial | HeapNodes | data_structures/heaps.py:9-211 | `C143_heaps_partial`, `C143_merge_violation`, `C143_self_merge_violation`, `C143_program_violation` | Nodes are objects in a store. Proved for every program that no longer uses a heap after it was the argument of merge and never merges a heap with itself: it ends, and all it shows is what separate priority queues would show. False otherwise: after h0.merge(h1), h1.insert(v) puts v into h0, whose length does not change; after h.merge(h), delete_min and insert never end. |
| C144 | Polynomials and matrices with rational entries | partial | RatPolys, RatMatrices | algebra/polynomials/polynomials.py:439-440, algebra/polynomials/polynomials.py:201-211, algebra/polynomials/polynomials.py:338-372, algebra/polynomials/algorithms.py:1-213, algebra/matrices/matrices.py:285-351 | `C144_ring_operations`, `C144_equality`, `C144_reduced`, `C144_sub_scalar_violation`, `C144_pseudo_quo_rem`, `C144_quo_rem_identity`, `C144_quo_rem_partial`, `C144_quo_rem_violation`, `C144_power_binary`, `C144_pow_partial`, `C144_pow_violation`, `C144_matrix_add`, `C144_matrix_neg`, `C144_matrix_sub`, `C144_matrix_scale`, `C144_matrix_mul_partial`, `C144_matrix_mul_violation`, `C144_matrix_mul_raises`, `C144_determinant_integer`, `C144_determinant_violation`, `C144_two_by_two`, `C144_two_by_two_partial`, `C144_integer_entries`, `C144_not_square` | Sums, differences, negatives, products and evaluation are right. The rest of the claim is false, because // of fractions rounds down: quo_rem divides correctly just if the quotient has integer coefficients, powers modulo a polynomial are characterised likewise, and determinant of a matrix with at least two rows returns an integer always, so it is wrong for every matrix with another determinant. For integer entries determinant agrees with MatrixZZ (C91). PolyQQ.gcd is not modelled: it raises AttributeError (content is only defined in PolyZZ). |
| C145 | Printed forms mean what they show | partial | Printing | algebra/polynomials/polynomials.py:66-102, algebra/matrices/matrices.py:45-74, number_theory/continued_fractions.py:23-37 | `C145_polynomial`, `C145_polynomial_unambiguous`, `C145_matrix`, `C145_quadratic_partial`, `C145_quadratic_violation` | Proved against a reader of such texts (Spec/Reading.lean) that does not use the printing code. For quadratic irrationals the claim is false when q = 1 and p is not 0: the code prints q in place of p, so that (p + sqrt(d))/1 always appears as 1 + sqrt(d). |
| C146 | Modular arithmetic called with numbers alone | partial | ModularCalls | number_theory/zn_arithmetic.py:25-97, number_theory/zn_arithmetic.py:186-228, number_theory/zn_arithmetic.py:686-727, number_theory/zn_arithmetic.py:784-860, combinatorics/enumeration/enumeration.py:360-405 | `C146_is_primitive_root_partial`, `C146_multiplicative_order_partial`, `C146_quadratic_congruence_partial`, `C146_fibonacci_primitive_roots_partial`, `C146_necklaces_partial`, `C146_violation` | End to end with the model's own factor and the real prime table, for all arguments where the numbers that are factored have at most one prime factor above 999983 (always below 999984^2). False beyond: with n = 341550071728321, is_primitive_root(23, n) is True and multiplicative_order(23, n) is None. |
| C147 | factor returns with probability one, though not for all random choices | proved | RandomFactor | number_theory/factorization/algorithms.py:348-443, number_theory/factorization/factorization.py:factor | `C147_lucky_call`, `C147_unlucky_call`, `C147_factor_returns`, `C147_factor_endless_violation` | The draws of each call of pollard_rho_brent are independent and uniform (Spec/Randomness.lean). The claim contains its negative side: factor does not return for all random choices. |
| C148 | The Solovay-Strassen test errs with probability less than one half | proved | RandomTests | number_theory/primes/primality.py:17-69 | `C148_half_reject`, `C148_solovay_strassen_error`, `C148_solovay_strassen_repeated`, `C148_solovay_strassen_prime` | The Euler liars form a proper subgroup of the units (Lemmas/Liars.lean). |
| C149 | The Miller-Rabin test errs with probability less than one quarter | proved | RandomTests | number_theory/primes/primality.py:72-110 | `C149_quarter_accept`, `C149_miller_rabin_error`, `C149_miller_rabin_repeated`, `C149_miller_rabin_prime` | The strong liars lie in a subgroup of order at most (n - 1)/4 (Lemmas/Liars.lean). |
| C150 | random_prime returns every prime of the interval with the same probability | proved | RandomPrime | number_theory/primes/primality.py:272-279 | `C150_random_prime_uniform`, `C150_random_prime_returns` | For every prime table as in C15. |
| C151 | Square roots modulo n are found with probability one, and quickly | proved | RandomPrime | number_theory/zn_arithmetic.py:314-335, number_theory/zn_arithmetic.py:452-502 | `C151_nonresidue_probability`, `C151_search_length`, `C151_search_ends`, `C151_sqrts_mod_p`, `C151_sqrts_mod_n`, `C151_quadratic_congruence`, `C151_fibonacci_primitive_roots`, `C151_calls`, `C151_pell`, `C151_endless_violation` | Given the factorization of n, as in C21; C151_calls is end to end for numbers with at most one prime factor above 999983. |
| C152 | In random_graph all pairs of vertices are adjacent independently, with probability d | partial | RandomGraph | graphs/graphs.py:1073-1106 | `C152_draw`, `C152_edge_probability`, `C152_graph_probability`, `C152_close_partial`, `C152_precisely_violation` | Independence and equal probability q are proved. The probability is not precisely d: r is a multiple of 1/2^53 below 1 and is compared by r <= d, so d < q <= d + 1/2^53 for every 0 <= d < 1, and random_graph(n, 0) can have edges. |
| C153 | The greedy independent set has performance ratio (d + 2) / 3 | proved | GreedyRatio | graphs/algorithms/independent_sets.py:68-119 | `C153_performance_ratio`, `C153_caro_wei`, `C153_turan`, `C153_loop_violation` | The argument of Halldorsson and Radhakrishnan, by induction along the run of the loop. The docstring does not exclude d = 0, where (d + 2)/3 < 1; then all vertices are returned (C93). With loops, which count for the degree, the ratio fails (witness). |
| C154 | tomita takes O(3^(n/3)) rounds, which is optimal | proved | CliqueCounts | graphs/algorithms/cliques.py:138-194 | `C154_tomita_rounds`, `C154_tomita_count`, `C154_maximal_cliques_count`, `C154_optimal` | Rounds are counted with tomitaLoopN, the loop of tomita with a counter (tomitaLoop_of_fuel shows that it gives the same result). The set operations of a round are counted in C164. |
| C155 | Leftist heap operations take logarithmic time, the constructor linear time | proved | LeftistCalls | data_structures/heaps.py:34-71, data_structures/heaps.py:95-211 | `C155_merge`, `C155_insert`, `C155_delete_min`, `C155_init` | Calls of _leftist_heap_merge are counted by mergeCalls and buildCalls, which follow the branches of merge and build. Constructor calls in histories get at least two values (C43). |
| C156 | gcd and ext_gcd take at most five rounds per decimal digit and quadratically many bit operations | proved | EuclidCosts | number_theory/core.py:gcd, number_theory/core.py:ext_gcd | `C156_gcd`, `C156_gcd_fibonacci`, `C156_ext_gcd` | The loops are transcribed once more with a record of every round, and the recorded result is proved to be that of gcd and ext_gcd. Cost model: classical division and multiplication (size of the quotient times size of the divisor). |
| C157 | Karatsuba multiplication takes O(n^(log_2 3)) coefficient operations | proved | MulCosts | algebra/polynomials/algorithms.py:mul_classical, algebra/polynomials/algorithms.py:mul_karatsuba | `C157_mul_classical`, `C157_mul_karatsuba` | Counts multiplications and additions/subtractions/sign changes of coefficients; the product computed along is proved to be that of mul_karatsuba. Copying of lists is not counted. |
| C158 | trial_division and discrete_log take O(sqrt(n)) steps, fermat O(n), lehman O(n^(1/3)) | proved | FactoringCosts | number_theory/factorization/algorithms.py:trial_division, number_theory/factorization/algorithms.py:fermat, number_theory/factorization/algorithms.py:lehman, number_theory/zn_arithmetic.py:discrete_log | `C158_trial_division`, `C158_fermat`, `C158_lehman`, `C158_discrete_log` | Counts the passes of all loops; square roots and gcds inside a pass count as one operation. The results computed along are proved to be those of the functions themselves. |
| C159 | The disjoint set structures and Kruskal's algorithm do logarithmic work per operation | partial | UnionFindCosts | data_structures/unionfind.py:UnionFind.find, data_structures/unionfind.py:UnionFind.union, data_structures/unionfind.py:NamedUnionFind, graphs/algorithms/spanning_trees.py:kruskal | `C159_unionfind_amortized`, `C159_named`, `C159_kruskal`, `C159_rank_violation` | The amortized bound holds thanks to path compression alone (potential function on subtree sizes). The part on ranks is false: the exchange of x and y comes after px and py have been read, so unions are not made by rank; for every n a chain of n unions gives a tree of height n whose root has rank at most 1 (C159_rank_violation). |
| C160 | The graph searches do no more work than their docstrings promise | proved | SearchCosts | graphs/algorithms/paths.py:15-112, graphs/algorithms/paths.py:202-309, graphs/algorithms/paths.py:415-516, graphs/algorithms/spanning_trees.py:16-123, graphs/algorithms/traversal.py:4-47, graphs/algorithms/connectivity.py:4-49 | `C160_bfs`, `C160_components`, `C160_dijkstra`, `C160_prim`, `C160_bellman_ford`, `C160_buckets` | Counted are the elements taken from the queue, heap or buckets, the bucket indices tried and the adjacency entries looked at; a heap operation counts as one (its length is at most 2*m + 1, so it costs O(log m)). The results computed along are proved to be those of the functions themselves. |
| C161 | The sieves of Eratosthenes write O(n log log n) bytes, pritchard is linear | proved | SieveCosts | number_theory/primes/sieves.py:91-149, number_theory/primes/sieves.py:152-220, number_theory/primes/sieves.py:223-293, number_theory/primes/sieves.py:380-443 | `C161_eratosthenes1`, `C161_eratosthenes2`, `C161_luo`, `C161_pritchard` | Counted are the bytes written by slice assignments, for pritchard the assignments with their index and the passes of the inner loop. The bound on the sum of the reciprocals of primes is proved in Lemmas/PrimeReciprocals.lean. Square roots, the allocation of the block and the final list comprehension are not counted. |
| C162 | The summatory functions take O(n^(3/4)) steps | proved | SumCosts | number_theory/arithmetic_functions/sums.py:8-72, number_theory/arithmetic_functions/sums.py:78-129, number_theory/arithmetic_functions/sums.py:132-189 | `C162_euler_phi_sum`, `C162_moebius_sum`, `C162_euler_phi_weighted_sum` | The passes are counted exactly: each key computed costs its own loop once, keys are distinct quotients n//d above the square root. The tables of euler_phi_list and moebius_list up to the square root are not counted. int(m**0.5) is a parameter, assumed exact (C141 proves it up to 2^48). |
| C163 | Powers, logarithms and roots take few passes, with the convergence the docstrings state | proved | RootCosts | number_theory/core.py:188-241, number_theory/core.py:336-410, number_theory/core.py:413-482, number_theory/core.py:485-541, number_theory/core.py:771-817 | `C163_power_mod`, `C163_integer_log`, `C163_valuation`, `C163_newton_step`, `C163_integer_sqrt`, `C163_halley_step`, `C163_integer_nth_root` | Counted transcriptions (Model/RootCosts.lean), each with a proof that its result is that of the function modelled in Model/Core.lean. The convergence is stated against the real root. |
| C164 | tomita runs in time O(3^(n/3)), set operations and output included | partial | CliqueCosts | graphs/algorithms/cliques.py:138-194 | `C164_tomita_work_partial`, `C164_tomita_output_violation` | Passes and set operations are O(3^(n/3)) with explicit constants 5/2 and 1400, for every graph. The claim for the whole work is false: on the graphs of Moon and Moser the lists yielded have together n/3 * 3^(n/3) entries (C164_tomita_output_violation); copies are bounded by n per pass. The constants count elements handled, not machine steps. |
| C165 | minimum_cost_paths_heuristic runs in time O(t^2 \|E\| log \|V\|) | partial | SteinerCosts | graphs/algorithms/steiner_trees.py:116-232 | `C165_comparisons_partial`, `C165_all_terminals`, `C165_time_violation` | At most t^3 \|V\| comparisons; precisely n^2(n^2-1)/6 if all n vertices are terminals, so the bound of the docstring is false (C165_time_violation: for every constant a star exceeds it). The work of dijkstra is C160. |
| C166 | power_jcp runs in time O(L^2 k) and constant memory | partial | LoopCosts | algebra/polynomials/algorithms.py:105-147 | `C166_power_jcp_time_partial`, `C166_power_jcp_passes`, `C166_power_jcp_memory_violation` | Time bound proved in full, with the exact number of passes; the documented memory bound O(L) is false and its negation is proved. Cost of the big integer arithmetic is not modelled. |
| C167 | floyd_warshall uses n^3 + n comparisons and n^2 entries | proved | LoopCosts | graphs/algorithms/paths.py:630-733 | `C167_floyd_warshall_time`, `C167_floyd_warshall_storage` | Comparisons counted by a transcription with counters whose result is proved equal to the model of floyd_warshall. |
| C168 | chartres takes O(n log n) steps and keeps its heap small | partial | ChartresCosts | number_theory/primes/sieves.py:296-377 | `C168_chartres_steps`, `C168_chartres_heap_partial`, `C168_chartres_heap_violation` | Step bound proved in full. The comment on the size of the heap holds for n >= 9 and fails for n = 5. A heappop or heappush is one step; the comparisons inside them are not counted. |
| C169 | The paths yielded by dijkstra_iterator cannot be spoiled by their receiver | partial | IteratorEdits | graphs/algorithms/paths.py:115-199 | `C169_edited_paths_partial`, `C169_edited_paths_violation`, `C169_unedited` | The vertices, their order and the distances are proved for every caller; the paths are not safe: line 193 yields the list that line 199 extends after the generator is resumed, and for a caller that empties the lists no yielded path except the first starts at s (violation, on every graph). A caller that changes nothing sees C67. |
| C170 | Recursive functions stay within Python's recursion limit | partial | Recursion | number_theory/arithmetic_functions/sums.py:59-70, number_theory/arithmetic_functions/sums.py:117-127, number_theory/arithmetic_functions/sums.py:178-187, number_theory/primes/prime_counting.py:46-61, number_theory/primes/prime_counting.py:377-394, algebra/polynomials/algorithms.py:42-102, data_structures/heaps.py:34-71, combinatorics/optimization/knapsack.py:50-59, combinatorics/optimization/tsp.py:36-51 | `C170_sums_partial`, `C170_primes_partial`, `C170_mul_karatsuba_partial`, `C170_leftist_merge_partial`, `C170_knapsack_violation`, `C170_tsp_violation` | Proved for the sums, the prime counting functions, products and heaps: with room for lim + 1 nested calls they return the right value for all n < 2^lim (29 * 2^lim coefficients, 2^lim values with 2 lim calls). False for the two depth first searches, which raise RecursionError precisely if the number of items is at least the number of possible calls. Frames of other functions are not counted. |
| C171 | Expressions of polynomial objects mean what they say | partial | PolyObjects | algebra/polynomials/polynomials.py:104-294, algebra/polynomials/polynomials.py:296-372, algebra/polynomials/polynomials.py:409-440 | `C171_ring_partial`, `C171_equality_partial`, `C171_canonical`, `C171_primitive_part`, `C171_division_class_violation`, `C171_ring_violation` | Proved by induction on expressions, objects with class and variable. Missing because false: a polynomial minus a number adds the number; ** raises IndexError on the zero polynomial; power_binary(0), quo_rem and pseudo_quo_rem return plain Polynomial objects whatever the operands, so that content and primitive_part raise AttributeError on them (violation theorems). |
| C172 | Results that depend on the graph, not on names or iteration order | partial | Renaming | graphs/graphs.py:45-85, graphs/graphs.py:240-365, graphs/algorithms/connectivity.py:87-97, graphs/algorithms/coloring.py:10-99, graphs/algorithms/coloring.py:344-484, graphs/algorithms/cliques.py:138-195, graphs/algorithms/cliques.py:242-306, graphs/algorithms/paths.py:15-113, graphs/algorithms/spanning_trees.py:16-194, graphs/algorithms/hamiltonian_paths.py:85-106 | `C172_renamed_calls`, `C172_degrees`, `C172_num_edges`, `C172_extreme_degrees`, `C172_is_connected`, `C172_clique_number`, `C172_maximal_cliques`, `C172_hamiltonian`, `C172_chromatic_number`, `C172_dijkstra`, `C172_prim`, `C172_kruskal`, `C172_dsatur_violation` | Proved for every function listed except dsatur, for which the claim is false: C172_dsatur_violation gives a graph with seven vertices where it uses 3 or 4 colors according to the order of the set or the names. For tomita graphs without loops. |
| C173 | Shortest paths with floating point weights | proved | FloatPaths, FloatPathsViolations | graphs/algorithms/paths.py:15-112, graphs/algorithms/paths.py:115-199, graphs/algorithms/paths.py:312-412, graphs/algorithms/paths.py:415-516 | `C173_dijkstra_least`, `C173_iterator_least`, `C173_same_lengths`, `C173_pairing_heap_least`, `C173_bellman_ford_least`, `C173_same_distances`, `C173_dijkstra_error`, `C173_integral_weights`, `C173_not_a_shortest_path_violation`, `C173_symmetry_violation`, `C173_negative_cycle_violation` | The first six hold for every addition that is monotone in the length so far and does not make walks shorter; floats are reals with a 53 bit significand, added with any monotone rounding that is exact on them, exponents unbounded. The last three show, with Python's rounding (to nearest, ties to even), what is lost: a returned path that is not a shortest one, asymmetric distances, a negative cycle that bellman_ford does not report. floyd_warshall is C177. Not covered: overflow, nan, dijkstra_buckets (integers only); dijkstra_bidirectional is C186. |
| C174 | Spanning trees depend on the order of the weights only; floating point weights | proved | FloatSpanningTrees, FloatTreesViolations | graphs/algorithms/spanning_trees.py:16-286, data_structures/heaps.py:9-211 | `C174_prim_order`, `C174_prim_links_order`, `C174_kruskal_order`, `C174_cheriton_tarjan_order`, `C174_prim_float`, `C174_kruskal_float`, `C174_cheriton_tarjan_float`, `C174_total_depends_on_root_violation`, `C174_totals_differ_violation` | Lemmas/WeightOrder relates two runs of the same function on graphs with weights in the same order, step by step, including the leftist heaps of cheriton_tarjan; C70 and C107 for the real weights then give the tree for floats. Bounds on the total need nonnegative weights. Overflow, infinities and nan are not modelled. gabow is not covered. Equal totals are false: two violations with Python's rounding. |
| C175 | All shortest path functions report one metric | proved | ShortestMetric | graphs/algorithms/paths.py:15-199, graphs/algorithms/paths.py:312-733 | `C175_one_distance`, `C175_metric`, `C175_positive`, `C175_add_edge`, `C175_unit` | Uses the models of C67, C68, C69 and C96. dijkstra_bidirectional from a vertex to itself reports inf (C69) and is left out; rounding is C173. |
| C176 | What all minimum spanning tree functions have in common | proved | TreeAgreement | graphs/algorithms/spanning_trees.py:16-395 | `C176_same_total`, `C176_same_tree`, `C176_bottleneck`, `C176_cut`, `C176_cycle`, `C176_add_edge` | Uses the models of C70, C107 and C130; when the functions return is stated there. For C176_add_edge there was no edge between a and b before. |
| C177 | floyd_warshall with floating point weights | proved | FloatFloydWarshall | graphs/algorithms/paths.py:630-733 | `C177_floyd_warshall_error`, `C177_floyd_warshall_thousand`, `C177_integral_weights`, `C177_symmetric`, `C177_raises`, `C177_differs_from_dijkstra_violation` | Model and rounding as in C68 and C173. The run with floats is compared, round by round, with the run of the same function on the exact weights (Lemmas/FloatFloyd). Overflow, infinite weights and nan are not modelled. |
| C178 | Colorings, cliques and independent sets bound each other | proved | ColoringBounds | graphs/algorithms/coloring.py:10-200, graphs/algorithms/coloring.py:344-484, graphs/algorithms/coloring.py:635-699, graphs/algorithms/cliques.py:242-306, graphs/algorithms/independent_sets.py:10-66 | `C178_chain`, `C178_exact_searches_agree`, `C178_greedy_can_be_optimal`, `C178_welsh_powell`, `C178_dsatur_bipartite`, `C178_greedy_bipartite_violation` | Uses the models of C71, C73, C92 and C108. The violation is about greedy_sequential on bipartite graphs, which promises no optimum. |
| C179 | The arithmetic functions fit together | partial | ArithIdentities | number_theory/arithmetic_functions/functions.py:70-450, number_theory/arithmetic_functions/inverse_functions.py:13-110, number_theory/factorization/factorization.py:159-204, number_theory/zn_arithmetic.py:25-183, number_theory/zn_arithmetic.py:686-727, number_theory/core.py:188-300 | `C179_divisor_sums_partial`, `C179_moebius_inversion_partial`, `C179_multiplicative_partial`, `C179_orders_partial`, `C179_euler_theorem_partial`, `C179_phi_inverse_partial`, `C179_euler_theorem_violation` | End to end with the model's own factor, as in C139 and C146. Partial because of the restriction on large prime factors; without it the claim is false: euler_phi(341550071728321) is wrong and power_mod(23, euler_phi(n), n) is not 1. |
| C180 | All functions about primes speak of the same primes, tables and sums of the same values | partial | PrimeAgreement | number_theory/primes/sieves.py:16-450, number_theory/primes/primality.py:186-247, number_theory/primes/prime_counting.py:15-148, number_theory/primes/prime_counting.py:239-300, number_theory/primes/prime_counting.py:360-520, number_theory/arithmetic_functions/sieves.py:10-236, number_theory/arithmetic_functions/sums.py | `C180_sieves_and_counts`, `C180_prime_count_partial`, `C180_next_prime`, `C180_tables` | Uses the models of C16-C18, C32, C33, C35, C103 and C139. Partial because of prime_count and prime_sum, which raise KeyError where integer_sqrt is one too large (C35); the integer parts of the roots in meissel are right up to 2^43 by C141. |
| C181 | distance_network_heuristic: time spent on removing leaves | partial | SteinerPruneCosts | graphs/algorithms/steiner_trees.py:51-52, graphs/algorithms/steiner_trees.py:235-278, graphs/algorithms/steiner_trees.py:281-328, graphs/graphs.py:168-173 | `C181_leaves_partial`, `C181_time_violation` | Proved: at most \|V\|(\|V\|+1)/2 vertices are looked at by the calls of leaves(). Refuted by a proof: the bound O(t \|E\| log \|V\|) of the docstring, on a path with one chord and a tail of any length. |
| C182 | cheriton_tarjan runs in the documented time | partial | CheritonCosts | graphs/algorithms/spanning_trees.py:224-232, graphs/algorithms/spanning_trees.py:251-280 | `C182_keys_partial`, `C182_time_violation` | Proved: on every connected graph with two neighbours at every vertex exactly \|V\|(\|V\|+1)/2 - 1 keys are copied, for all random choices. The documented bound is false: on cycles more than c \|E\| log log \|V\| keys are copied, for every c. |
| C183 | sqrts_mod_p keeps its numbers small | partial | TonelliCosts | number_theory/zn_arithmetic.py:268-275, number_theory/zn_arithmetic.py:323-335 | `C183_rounds_partial`, `C183_power_violation`, `C183_time_violation` | At most log p powers are computed in the loop (proved). The size of the numbers is not bounded as documented: if p % 8 = 1 and 2^s divides p - 1, the roots of a root of -1 need a number of 2^(s-2) bits for all random choices; for the prime 3 * 2^189 + 1 that exceeds 2^150 log(p)^4. The time of the builtin pow is not modelled. |
| C184 | Roots, logarithms and congruences modulo n fit together | proved | ResidueAgreement | number_theory/zn_arithmetic.py:236-341, number_theory/zn_arithmetic.py:452-735, number_theory/zn_arithmetic.py:735-900, number_theory/core.py:244-290, number_theory/core.py:702-760 | `C184_legendre`, `C184_inverse`, `C184_quadratic`, `C184_prime_modulus`, `C184_roots`, `C184_orders`, `C184_discrete_log` | Agreement of the models of zn_arithmetic.py and core.py with each other, from Mathlib's Legendre symbol, Euler's criterion and orders of elements. Functions with random choices are compared whenever both return. |
| C185 | Generators list as many objects as the counting functions say | partial | CountAgreement | combinatorics/generation/combinations.py:1-60, combinatorics/generation/tuples.py:1-51, combinatorics/generation/permutations.py:6-430, combinatorics/generation/partitions.py:1-250, combinatorics/enumeration/enumeration.py:11-380, combinatorics/optimization/exact_cover.py:223-270, algebra/power_series/power_series.py:15-75 | `C185_combinations_partial`, `C185_combinations_violation`, `C185_tuples`, `C185_permutations`, `C185_variations`, `C185_partitions_partial`, `C185_euler`, `C185_eta_partial`, `C185_bell`, `C185_bipartitions_symm`, `C185_tilings_partial`, `C185_tilings_violation` | Violated for t > n (binomial is 1, combinations never ends) and for one square (domino_tilings(1) is 1, number_of_domino_tilings(1, 1) is 0). n = 0 is left out for the partitions because both functions raise there. partition_list is taken with the exact index where the code uses floating point. |
| C186 | dijkstra_bidirectional with floating point weights | proved | FloatBidirectional | graphs/algorithms/paths.py:524-622, graphs/algorithms/paths.py:115-199 | `C186_bidirectional_error`, `C186_bidirectional_thousand`, `C186_integral_weights`, `C186_same_vertex_violation`, `C186_symmetry_violation`, `C186_differs_from_dijkstra_violation` | Lemmas/Bidirectional holds for any commutative, monotone addition that is exact for 0 (bidirectional_weak). On the path 0-1-2-3-4 with weights 1, 2^-53, 2^-53, 2^-53 the length from 0 to 4 is 1, from 4 to 0 it is 1 + 2^-52, and dijkstra from 4 gives 1 + 2^-51. For s = t the result is (inf, []). Overflow, subnormal numbers, nan and inf weights are not modelled. |
| C187 | What one more edge or one vertex less does to the exact answers | proved | SmallChanges | graphs/algorithms/coloring.py:101-190, graphs/algorithms/coloring.py:344-460, graphs/algorithms/cliques.py:242-306, graphs/algorithms/independent_sets.py:10-60, graphs/algorithms/connectivity.py:87-110, graphs/algorithms/hamiltonian_paths.py:85-106, graphs/graphs.py:909-950 | `C187_chromatic_number`, `C187_clique_number`, `C187_independence_number`, `C187_is_connected`, `C187_hamiltonian_paths`, `C187_spanning_trees`, `C187_greedy_violation` | The change is one more operation (add_edge between existing vertices, delete_edge, delete_vertex) at the end of any history; both runs are the modelled functions. For spanning trees the graph has at least three vertices, as in C111. The failure for greedy_sequential is a concrete tree. |
| C188 | The functions about Pell's equation fit together | proved | PellAgreement | number_theory/diophantine_equations/pell.py:92-165, number_theory/diophantine_equations/pell.py:167-206, number_theory/diophantine_equations/pell.py:208-298, number_theory/diophantine_equations/pell.py:300-345 | `C188_negative_unit`, `C188_powers`, `C188_multiple`, `C188_farey_first`, `C188_generator`, `C188_minimal`, `C188_minimal_one_violation` | The hypothesis on D (integer_sqrt is right, C09) and on the integer part of the floating point bound (C141) are part of the statement. The pairs of pell_small are those yielded after any number of convergents. |
| C189 | How the best knapsacks and the shortest tours depend on the input | proved | OptimaChanges | combinatorics/optimization/knapsack.py:15-92, combinatorics/optimization/tsp.py:1-150, combinatorics/optimization/tsp.py:152-201 | `C189_order`, `C189_capacity`, `C189_one_more_item`, `C189_units`, `C189_same_length`, `C189_distances`, `C189_numbering`, `C189_direction`, `C189_one_point_less`, `C189_farthest_numbering_violation`, `C189_farthest_one_point_less_violation` | Integer items and exact arithmetic for distances (an ordered group with infinity), as in C60 and C62. The failures for farthest_insertion are concrete points with distances along the axes. |
| C190 | trial_division, fermat and lehman compared | proved | FactoringAgreement | number_theory/factorization/algorithms.py:23-95, number_theory/factorization/algorithms.py:98-146, number_theory/factorization/algorithms.py:149-215, number_theory/factorization/algorithms.py:285-567 | `C190_least`, `C190_fermat`, `C190_fermat_small`, `C190_lehman`, `C190_lehman_cases` | trial_division with the table of primes as a parameter (IsPrimeTable). cfrac is covered whenever it returns a number; pollard_p_minus_1 is not compared. The range in C190_fermat is that of C135. |
| C191 | The power series functions fit together | proved | SeriesAgreement | algebra/power_series/power_series.py:39-55, algebra/power_series/power_series.py:58-74, algebra/power_series/power_series.py:77-84, algebra/polynomials/algorithms.py:105-147 | `C191_invert_invert`, `C191_invert_product`, `C191_invert_power`, `C191_power_laws`, `C191_precision`, `C191_jcp` | Integer coefficients and exponents k >= 0. The laws are equalities of the returned lists. |
| C192 | How the number of exact covers depends on the input | proved | CoverChanges | combinatorics/optimization/exact_cover.py | `C192_order`, `C192_one_more_set`, `C192_binary` | Covers are counted as sets of indices, so that equal sets at different places count separately, as in the code (C61). |
| C193 | LeftistHeap and PairingHeap give the same answers | proved | HeapAgreement | data_structures/heaps.py:34-191, data_structures/heaps.py:214-345 | `C193_same_answers`, `C193_sorted` | LeftistHeap raises for fewer than two initial values (C43), hence the two keys at the start. decrease_key, which LeftistHeap lacks, is not used; it is in C44. |
| C194 | gcd_list, lcm_list, chinese and factor_back depend on the collection, not on the order of the list | proved | ListArithmetic | number_theory/core.py:6-67, number_theory/core.py:125-185, number_theory/core.py:544-595, number_theory/factorization/factorization.py:124-145 | `C194_sets`, `C194_order`, `C194_groups`, `C194_scaling`, `C194_lattice`, `C194_chinese_order`, `C194_chinese_residues`, `C194_chinese_groups`, `C194_factor_back` | Derived from the characterisations in C01, C03, C10 and C28; the statements speak of the function values only. |
| C195 | Matrix expressions obey the laws of linear algebra, and which determinants can be relied on | proved | MatrixLaws | algebra/matrices/matrices.py:88-219, algebra/matrices/matrices.py:285-345 | `C195_sums`, `C195_products`, `C195_associativity_violation`, `C195_triangular`, `C195_definite`, `C195_dominant`, `C195_determinant_product` | The failing bracketing is part of the statement; the determinant of other matrices is the subject of C91. |
| C196 | The operations of Graph fit together | proved | GraphOperations | graphs/graphs.py:523-780, graphs/graphs.py:941-1015, graphs/algorithms/degree_sequences.py:1-130 | `C196_complement_twice`, `C196_complement_involution`, `C196_induced_twice`, `C196_complement_induced`, `C196_deletions`, `C196_edges`, `C196_degree_sequence` | Graphs are compared by vertices and weights (toAbs), not by the order of dictionary keys. |
| C197 | The two Steiner tree heuristics agree with each other, with dijkstra and with prim | proved | SteinerAgreement | graphs/algorithms/steiner_trees.py:16-113, graphs/algorithms/steiner_trees.py:116-278, graphs/algorithms/steiner_trees.py:281-328 | `C197_ratio`, `C197_two_terminals`, `C197_all_terminals`, `C197_distance_trees` | Derived from the results of the two heuristics (C105, C106), dijkstra (C67) and prim (C70) for arbitrary iteration orders; the improvement step is shown to return a minimum spanning tree when the terminals fill a component, and never more than a spanning tree of the distance network. |
| C198 | Spanning trees and round trips | proved | TreesTours | graphs/algorithms/spanning_trees.py:16-123, combinatorics/optimization/tsp.py:29-54, combinatorics/optimization/tsp.py:57-149, combinatorics/optimization/tsp.py:152-200, combinatorics/optimization/tsp.py:271-307 | `C198_tree_below_tours`, `C198_exact_tours`, `C198_heuristic_tours` | Exact arithmetic in any ordered commutative group; that depth_first returns is C62, ReturnedLength is the value of either function. |

## Axioms of each theorem

As printed by `#print axioms` for all 922 theorems of `MANIFEST.json`.

* `propext, Classical.choice, Quot.sound`: all the others (852 theorems).
* `propext, Quot.sound` (48): C01_gcd_list_short, C03_lcm_list_short, C04_power_mod_violation, C08_integer_nth_root_error, C08_integer_nth_root_violation, C09_integer_sqrt_error, C09_integer_sqrt_violation, C10_chinese_single, C10_chinese_violation, C25_discrete_log_not_coprime, C29_validate_input, C30_carmichael_lambda_error, C31_factorial_error, C32_errors, C33_euler_phi_list_error, C33_moebius_list_error, C33_sigma_list_error, C35_prime_count_errors, C38_pollard_p_minus_1, C43_leftist_init_violation, C44_decrease_key_error, C47_zero_power_violation, C49_quo_rem_degree_violation, C51_mul_raises, C56_binomial_outside, C56_multinomial_error, C60_branch_and_bound_feasible, C60_branch_and_bound_zero, C60_depth_first, C60_dynamic_programming_negative, C62_single_point_violation, C68_floyd_warshall_negative_loop_violation, C76_cached_function, C77_elements, C81_zero, C82_rth_power_raises, C91_not_square, C100_violation, C122_primorial_error, C126_getitem, C126_setitem, C135_fermat_even, C135_fermat_three, C142_delete_row_violation, C142_disjoint, C157_mul_classical, C170_knapsack_violation, C194_factor_back.
* `propext` (18): C14_is_square_factored_negative, C28_factor_back, C30_carmichael_lambda_unit_factorization, C33_tau_list_error, C47_ps_power_zero, C48_ps_invert_error, C51_add_violation, C56_bell_number_error, C56_stirling_key_error, C57_zero_raises, C58_weights_raise, C60_negative_weight, C91_mutation_violation, C110_no_vertices, C123_odd_graph_error, C124_load_graph_error, C142_constructor_violation, C142_delete_row_determinant.
* `no axioms` (4): C88_complete_graph_one, C88_coprime_pairs_graph_one, C88_grid_graph_one, C100_zero.

## Code that is not modelled

Every function of `/repo/rosemary` (except tests) that is not listed here is transcribed in
`lean/Verif/Model` with a citation of its lines.

* `graphs/graphs.py`
  * `Graph.__init__` (12-16): the empty graph is `[]` in the model
  * `Graph.__repr__` (18-23): prints the number of vertices
  * `Graph.__getitem__` (25-29): dict lookup, used inline
  * `Graph.__iter__` (31-35): keys, used inline
* `combinatorics/optimization/exact_cover.py`
  * `ExactCover.__init__` (115-123): stores its arguments
  * `ExactCover.__repr__` (125-126): prints a constant
* `number_theory/classification.py`
  * `is_prime_power` (275-276): stub without a body
  * `is_totient` (279-280): stub without a body
  * `is_polygonal` (283-284): stub without a body
  * `is_powerful` (298-299): stub without a body
  * `is_fibonacci` (302-303): stub without a body
  * `is_perfect` (306-307): stub without a body
* `number_theory/diophantine_equations/pell.py`
  * `PellEquation.__repr__` (14-15): prints the two stored numbers
  * `PellEquation.resolvent_solution` (17-89): refers to undefined names D and n, so every call raises NameError
* `data_structures/heaps.py`
  * `LeftistHeap.__repr__` (126-127): prints the counter
  * `LeftistHeap.__len__` (129-130): reads a counter
* `algebra/matrices/matrices.py`
  * `Matrix.__getitem__` (76-80): list access, used inline
* `algebra/polynomials/polynomials.py`
  * `Polynomial.coefficients` (265-274): returns the stored list
