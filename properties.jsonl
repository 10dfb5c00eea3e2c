{"id": "C01", "title": "gcd and gcd_list return the greatest common divisor", "statement": "For any integers x, y (any sign, including zero), gcd(x, y) returns the nonnegative greatest common divisor; for any list of at least two integers gcd_list returns the nonnegative gcd of all its members, i.e. a common divisor that every common divisor divides.", "quantifier": "all integers x, y; all lists of integers of any length >= 2", "why_tests_cant": "Integers are unbounded and lists have any length; sampled pairs say nothing about sign and zero combinations at other magnitudes.", "anchors": ["rosemary/number_theory/core.py:gcd", "rosemary/number_theory/core.py:gcd_list"]}
{"id": "C02", "title": "ext_gcd returns Bezout coefficients", "statement": "ext_gcd(x, y) terminates and returns (a, b, d) with a*x + b*y = d and d = gcd(x, y) >= 0, for all integers of either sign.", "quantifier": "all pairs of integers", "why_tests_cant": "The sign-swap bookkeeping interacts with the order and signs of the operands; infinitely many inputs.", "anchors": ["rosemary/number_theory/core.py:ext_gcd"]}
{"id": "C03", "title": "lcm and lcm_list return the least common multiple", "statement": "lcm(x, y) is the nonnegative least common multiple (0 when either argument is 0) and lcm_list of at least two integers is the lcm of all of them.", "quantifier": "all integers x, y; all integer lists of length >= 2", "why_tests_cant": "lcm_list folds over lists of any length with integers of any size and sign; leastness is a statement about all common multiples.", "anchors": ["rosemary/number_theory/core.py:lcm", "rosemary/number_theory/core.py:lcm_list"]}
{"id": "C04", "title": "power_mod computes a^k mod m", "statement": "For a >= 0, k >= 0, m >= 1, power_mod(a, k, m) returns the unique r in [0, m) with r congruent to a^k mod m, the same value as the builtin pow; it raises ValueError exactly when a < 0, k < 0 or m < 1.", "quantifier": "all integers a, k, m", "why_tests_cant": "The exponent loop runs for unboundedly many iterations; tests cover few (a, k, m).", "anchors": ["rosemary/number_theory/core.py:power_mod"]}
{"id": "C05", "title": "inverse_mod returns the modular inverse or refuses", "statement": "inverse_mod(a, m) returns the b in [0, m) with a*b congruent to 1 mod m when m >= 2 and gcd(a, m) = 1, and raises ValueError in every other case.", "quantifier": "all integers a, m", "why_tests_cant": "Covers every sign of a and every modulus, including the refusal branch.", "anchors": ["rosemary/number_theory/core.py:inverse_mod"]}
{"id": "C06", "title": "bit_count is the number of one bits", "statement": "bit_count(n) is the number of 1 digits in the binary expansion of |n|.", "quantifier": "all integers n", "why_tests_cant": "Integers are unbounded and the loop clears one bit per iteration, so correctness is an induction over all bit patterns.", "anchors": ["rosemary/number_theory/core.py:bit_count"]}
{"id": "C07", "title": "integer_log is the floor logarithm", "statement": "For b >= 2 and n >= 1, integer_log(b, n) returns the k with b^k <= n < b^(k+1); it raises ValueError exactly when b <= 1 or n <= 0.", "quantifier": "all integers b, n", "why_tests_cant": "Doubling phase followed by bisection; off-by-one errors show only near powers of b of arbitrary size.", "anchors": ["rosemary/number_theory/core.py:integer_log"]}
{"id": "C08", "title": "integer_nth_root is the exact floor root", "statement": "For n >= 1 and m >= 0, integer_nth_root(n, m) terminates and returns the r with r^n <= m < (r+1)^n; ValueError exactly when m < 0 or n < 1.", "quantifier": "all integers n >= 1, m >= 0 (for n = 2 see integer_sqrt)", "why_tests_cant": "Convergence of the integer Halley iteration from above must hold for every m and n; no finite test set settles it.", "anchors": ["rosemary/number_theory/core.py:integer_nth_root"]}
{"id": "C09", "title": "integer_sqrt is the exact floor square root", "statement": "For n >= 0 integer_sqrt(n) returns the r with r^2 <= n < (r+1)^2; ValueError exactly when n < 0.", "quantifier": "all integers n >= 0", "why_tests_cant": "The floating point branch covers about 10^18 inputs and the Newton branch is unbounded.", "anchors": ["rosemary/number_theory/core.py:integer_sqrt"]}
{"id": "C10", "title": "chinese solves systems of congruences", "statement": "For pairwise coprime positive moduli, chinese returns the unique x in [0, M), M the product, congruent to every residue; it raises ValueError when some pair of moduli is not coprime.", "quantifier": "all nonempty lists of (residue, modulus) pairs", "why_tests_cant": "Number of congruences and their sizes are unbounded; intermediate reduction must keep all earlier congruences.", "anchors": ["rosemary/number_theory/core.py:chinese"]}
{"id": "C11", "title": "preconditioned CRT agrees with chinese", "statement": "Given crt_preconditioning_data for pairwise coprime moduli >= 2, chinese_preconditioned returns the unique solution in [0, M) for every residue vector; one table may be reused for any number of systems.", "quantifier": "all lists of pairwise coprime moduli, all residue vectors", "why_tests_cant": "The precomputed data are reused for every residue vector and every list of moduli; tests see finitely many.", "anchors": ["rosemary/number_theory/core.py:crt_preconditioning_data", "rosemary/number_theory/core.py:chinese_preconditioned"]}
{"id": "C12", "title": "jacobi_symbol is the Jacobi symbol", "statement": "For odd m > 0 and any integer a, jacobi_symbol(a, m) is the Jacobi symbol (a|m): the product over prime factors of m of Legendre symbols; ValueError exactly for even m.", "quantifier": "all integers a and all odd positive m", "why_tests_cant": "The reciprocity loop must be right for all residues mod 8 at all depths; also termination.", "anchors": ["rosemary/number_theory/core.py:jacobi_symbol"]}
{"id": "C13", "title": "valuation is the exact exponent", "statement": "For p >= 2 and n >= 1, valuation(p, n) is the largest k with p^k dividing n.", "quantifier": "all integers p >= 2, n != 0", "why_tests_cant": "The exponent is found by doubling and bisection, whose off-by-one errors depend on the binary shape of unbounded exponents.", "anchors": ["rosemary/number_theory/core.py:valuation"]}
{"id": "C14", "title": "is_square and is_power classify exactly", "statement": "is_square(n) returns the root r >= 0 with r^2 = n when n >= 0 is a perfect square and False otherwise; is_power(n) returns (b, k) with b^k = n and k >= 2 maximal exactly when n is a perfect power.", "quantifier": "all nonnegative integers n", "why_tests_cant": "The quick-reject residue tables must reject no square for any of infinitely many n.", "anchors": ["rosemary/number_theory/classification.py:is_square", "rosemary/number_theory/classification.py:is_power"]}
{"id": "C15", "title": "probable prime tests never reject a prime", "statement": "If n is prime then miller_rabin(n, a) (and the bases-2..19 test, and solovay_strassen with any random bases) returns True for every base a in 1..n-1.", "quantifier": "all primes n, all bases a, all random choices", "why_tests_cant": "There are infinitely many primes and any random schedule of bases; one rejected prime would break the claim.", "anchors": ["rosemary/number_theory/primes/primality.py:miller_rabin", "rosemary/number_theory/primes/primality.py:is_probable_prime", "rosemary/number_theory/primes/primality.py:solovay_strassen"]}
{"id": "C16", "title": "is_prime decides primality", "statement": "is_prime(n) is True exactly when n is a prime number.", "quantifier": "all integers n", "why_tests_cant": "Claims about all n; the wheel of trial divisors must miss no prime.", "anchors": ["rosemary/number_theory/primes/primality.py:is_prime", "rosemary/number_theory/factorization/algorithms.py:trial_division"]}
{"id": "C17", "title": "next_prime returns the least larger prime", "statement": "For n >= 1, next_prime(n) terminates and returns the smallest prime exceeding n.", "quantifier": "all n >= 1", "why_tests_cant": "Requires that no prime is skipped between n and the result for every n.", "anchors": ["rosemary/number_theory/primes/primality.py:next_prime"]}
{"id": "C18", "title": "every prime sieve returns exactly the primes up to n", "statement": "eratosthenes1, eratosthenes2, luo, pritchard, chartres and primes each return the increasing list of exactly the primes <= n.", "quantifier": "all n >= 0 accepted by the functions", "why_tests_cant": "Index arithmetic (wheel mod 6, slice counts) must be right for every residue class of n.", "anchors": ["rosemary/number_theory/primes/sieves.py"]}
{"id": "C19", "title": "linear_congruence returns the complete solution set", "statement": "linear_congruence(a, b, n) returns the sorted list of all x in [0, n) with a*x congruent to b mod n, for n >= 2.", "quantifier": "all integers a, b and n >= 2", "why_tests_cant": "Completeness means that no residue outside the returned list solves the congruence, for every modulus.", "anchors": ["rosemary/number_theory/zn_arithmetic.py:linear_congruence"]}
{"id": "C20", "title": "sqrts_mod_p returns all square roots modulo a prime", "statement": "For prime p and any a, sqrts_mod_p(a, p) returns the sorted list of all x in [0, p) with x^2 congruent to a mod p, whatever nonresidue the random search finds.", "quantifier": "all primes p, all integers a, all random choices", "why_tests_cant": "Random nonresidue choice and arbitrary 2-adic valuation of p - 1.", "anchors": ["rosemary/number_theory/zn_arithmetic.py:sqrts_mod_p"]}
{"id": "C21", "title": "sqrts_mod_n returns all square roots modulo n", "statement": "For n >= 2 with its factorization, sqrts_mod_n(a, n) returns the sorted list of all x in [0, n) with x^2 congruent to a mod n.", "quantifier": "all n >= 2 and integers a", "why_tests_cant": "Hensel lifting at singular roots and CRT recombination over any number of primes.", "anchors": ["rosemary/number_theory/zn_arithmetic.py:sqrts_mod_n", "rosemary/number_theory/zn_arithmetic.py:_sqrts_mod_pk", "rosemary/number_theory/zn_arithmetic.py:_quadratic_lift"]}
{"id": "C22", "title": "quadratic_congruence returns all roots of a quadratic modulo n", "statement": "For n >= 2 and a != 0, quadratic_congruence([a, b, c], n) returns the sorted duplicate-free list of all x in [0, n) with a x^2 + b x + c congruent to 0 mod n.", "quantifier": "all coefficients with a != 0 and all n >= 2", "why_tests_cant": "Modulus enlargement when gcd(2a, n) > 1 must neither lose nor invent roots.", "anchors": ["rosemary/number_theory/zn_arithmetic.py:quadratic_congruence"]}
{"id": "C23", "title": "primitive_root and is_primitive_root", "statement": "is_primitive_root(a, n) is True exactly when a generates the multiplicative group mod n; primitive_root(n) returns the least generator when one exists and raises ValueError exactly when none exists.", "quantifier": "all n >= 2 and all a", "why_tests_cant": "Existence for every modulus of the form 2, 4, p^k, 2p^k and non-existence otherwise.", "anchors": ["rosemary/number_theory/zn_arithmetic.py:is_primitive_root", "rosemary/number_theory/zn_arithmetic.py:primitive_root"]}
{"id": "C24", "title": "nth roots of 1 and -1 modulo p", "statement": "For prime p, nth_roots_of_unity_mod_p(n, p) (nth_roots_of_minus1_mod_p) returns the sorted list of exactly the x in [1, p-1] with x^n congruent to 1 (to -1).", "quantifier": "all primes p, all n >= 1", "why_tests_cant": "Completeness of the enumeration has to hold for all primes and all n, whatever primitive root is drawn.", "anchors": ["rosemary/number_theory/zn_arithmetic.py:nth_roots_of_unity_mod_p", "rosemary/number_theory/zn_arithmetic.py:nth_roots_of_minus1_mod_p"]}
{"id": "C25", "title": "discrete_log is sound and complete", "statement": "discrete_log(a, b, p) returns x >= 0 with a^x congruent to b mod p whenever such an x exists and gcd(a, p) = 1, and otherwise raises ValueError; a returned value is always correct.", "quantifier": "all a, b and all moduli p", "why_tests_cant": "Baby-step giant-step coverage of the whole exponent range for each modulus.", "anchors": ["rosemary/number_theory/zn_arithmetic.py:discrete_log"]}
{"id": "C26", "title": "multiplicative_order is the exact order", "statement": "For n >= 2 and gcd(a, n) = 1, multiplicative_order(a, n) is the least k >= 1 with a^k congruent to 1 mod n; ValueError when gcd(a, n) > 1.", "quantifier": "all a, n >= 2", "why_tests_cant": "Leastness excludes all smaller exponents, for every modulus and every base.", "anchors": ["rosemary/number_theory/zn_arithmetic.py:multiplicative_order"]}
{"id": "C27", "title": "factor returns the prime factorization", "statement": "factor(n) returns pairs (p, e) with primes strictly increasing, e >= 1, and product of p^e equal to |n| (a (-1, 1) entry in front for negative n).", "quantifier": "all integers n != 0", "why_tests_cant": "Depends on a compositeness test being right for every cofactor; tests only see small numbers.", "anchors": ["rosemary/number_theory/factorization/factorization.py:factor"]}
{"id": "C28", "title": "divisor enumeration is complete", "statement": "From the prime factorization of n >= 1, divisors(n) is the sorted list of all positive divisors once each, xdivisors yields each divisor exactly once, prime_divisors the sorted prime divisors, and factor_back inverts factor.", "quantifier": "all n >= 1 and all factorizations", "why_tests_cant": "The number of distinct primes and their exponents is unbounded; completeness and absence of repetition are needed for all of them.", "anchors": ["rosemary/number_theory/factorization/factorization.py:divisors", "rosemary/number_theory/factorization/factorization.py:xdivisors", "rosemary/number_theory/factorization/factorization.py:prime_divisors", "rosemary/number_theory/factorization/factorization.py:factor_back"]}
{"id": "C29", "title": "arithmetic functions match their number-theoretic definitions", "statement": "From a prime factorization of n, euler_phi, moebius_mu, divisor_tau and divisor_sigma(n, k) return Euler's totient, the Moebius function, the number of divisors and the sum of k-th powers of divisors.", "quantifier": "all n >= 1 and all k >= 0", "why_tests_cant": "Multiplicativity must be right for every factorization shape.", "anchors": ["rosemary/number_theory/arithmetic_functions/functions.py:euler_phi", "rosemary/number_theory/arithmetic_functions/functions.py:moebius_mu", "rosemary/number_theory/arithmetic_functions/functions.py:divisor_tau", "rosemary/number_theory/arithmetic_functions/functions.py:divisor_sigma"]}
{"id": "C30", "title": "carmichael_lambda is the universal exponent", "statement": "carmichael_lambda(n) is the least k >= 1 with a^k congruent to 1 mod n for all a coprime to n.", "quantifier": "all n >= 1", "why_tests_cant": "The exponent must work for all units a of every modulus n and be the least such number.", "anchors": ["rosemary/number_theory/arithmetic_functions/functions.py:carmichael_lambda"]}
{"id": "C31", "title": "factorial by binary splitting equals n!", "statement": "factorial(n) = 1*2*...*n for all n >= 0.", "quantifier": "all n >= 0", "why_tests_cant": "The bookkeeping of shifts and odd parts must be right at every recursion depth.", "anchors": ["rosemary/number_theory/arithmetic_functions/functions.py:factorial"]}
{"id": "C32", "title": "summatory functions equal the naive sums", "statement": "euler_phi_sum(n), moebius_sum(n), sigma_sum(n) equal the sums over k <= n of phi(k), mu(k), sigma(k).", "quantifier": "all n >= 1", "why_tests_cant": "Sub-linear hyperbola recursions; boundary at floor(sqrt n) for every n.", "anchors": ["rosemary/number_theory/arithmetic_functions/sums.py"]}
{"id": "C33", "title": "sieved tables equal pointwise values", "statement": "euler_phi_list(n), moebius_list(n), tau_list(n) and sigma_list(n) hold at every index 1 <= k <= n the value of the arithmetic function at k.", "quantifier": "all n and all indices", "why_tests_cant": "In-place sieving with shared arrays; must hold for each index of each table.", "anchors": ["rosemary/number_theory/arithmetic_functions/sieves.py"]}
{"id": "C34", "title": "factored_range and moebius_range cover a range correctly", "statement": "factored_range(a, b) yields exactly (k, factorization of k) for a <= k < b in order; moebius_range yields (k, mu(k)).", "quantifier": "all ranges a < b", "why_tests_cant": "Segment boundaries and offsets must be right for every segment and every prime below the square root of the end.", "anchors": ["rosemary/number_theory/primes/sieves.py:factored_range", "rosemary/number_theory/arithmetic_functions/sieves.py:moebius_range", "rosemary/number_theory/arithmetic_functions/sieves.py:factored_range"]}
{"id": "C35", "title": "prime_count, prime_sum and legendre are exact", "statement": "prime_count(n) maps each v = n // i with v >= 2 to pi(v); prime_sum(n) is the sum of primes <= n; legendre(n) = pi(n).", "quantifier": "all n >= 2", "why_tests_cant": "A sublinear dynamic program is updated in place; the order of updates matters at all sizes.", "anchors": ["rosemary/number_theory/primes/prime_counting.py", "rosemary/number_theory/arithmetic_functions/sums.py"]}
{"id": "C36", "title": "smooth factoring and GF(2) elimination", "statement": "smooth_factor(n, base) returns exponents whose product of powers is n exactly when n splits over the base; every vector returned by the elimination selects rows summing to zero mod 2.", "quantifier": "all n, factor bases and 0/1 matrices", "why_tests_cant": "Elimination over GF(2) must keep its bookkeeping for matrices of every size.", "anchors": ["rosemary/number_theory/factorization/algorithms.py:smooth_factor", "rosemary/number_theory/factorization/algorithms.py:_z2_gaussian_elimination"]}
{"id": "C37", "title": "continued fraction pairs used by cfrac satisfy the congruence", "statement": "Every generated pair (A, Q) at index i satisfies A^2 congruent to (-1)^i Q mod n.", "quantifier": "all n, all multipliers, all steps", "why_tests_cant": "The congruence is an invariant of an iteration without bound on its length.", "anchors": ["rosemary/number_theory/factorization/algorithms.py:cfrac"]}
{"id": "C38", "title": "factoring routines only return genuine divisors", "statement": "trial_division(n) returns the least prime factor not exceeding the bound, or n; fermat, pollard_rho, pollard_rho_brent, pollard_p_minus_1, lehman return only divisors of n.", "quantifier": "all n >= 2, all random choices", "why_tests_cant": "Any random seed and any number of iterations may occur; a wrong divisor would show up only on rare schedules.", "anchors": ["rosemary/number_theory/factorization/algorithms.py"]}
{"id": "C39", "title": "pell_fundamental_solution solves Pell's equation", "statement": "For non-square D > 0, pell_fundamental_solution(D) terminates and returns the least positive solution of x^2 - D y^2 = 1; pell_fundamental_solution(D, -1) returns the least positive solution of x^2 - D y^2 = -1 if there is any and raises ValueError otherwise; D <= 0, square D and other right-hand sides raise ValueError.", "quantifier": "all non-square D >= 2", "why_tests_cant": "Termination relies on the periodicity of the continued fraction of the square root of every D, and the solutions can be astronomically large.", "anchors": ["rosemary/number_theory/diophantine_equations/pell.py:pell_fundamental_solution", "rosemary/number_theory/continued_fractions.py:QuadraticIrrational"]}
{"id": "C40", "title": "QuadraticIrrational continued fraction of sqrt d is periodic and correct", "statement": "For non-square d > 0, QuadraticIrrational(d) terminates, partial_quotients yields the partial quotients of the continued fraction of sqrt(d), period_length is its least period, fundamental_period is a palindrome followed by 2*floor(sqrt d), and convergents yields the convergents in lowest terms; negative and square d raise ValueError.", "quantifier": "all non-square d", "why_tests_cant": "Periodicity and the palindromic end of the period have to hold for every d; periods are unbounded.", "anchors": ["rosemary/number_theory/continued_fractions.py:QuadraticIrrational._initialize_sqrt", "rosemary/number_theory/continued_fractions.py:QuadraticIrrational.partial_quotients", "rosemary/number_theory/continued_fractions.py:QuadraticIrrational.convergents"]}
{"id": "C41", "title": "UnionFind maintains the partition", "statement": "After any sequence of union/find calls, find(x) = find(y) exactly when x and y have been connected by the unions made so far, and find terminates.", "quantifier": "all operation sequences", "why_tests_cant": "Histories are unbounded; path compression and linking interact.", "anchors": ["rosemary/data_structures/unionfind.py:UnionFind"]}
{"id": "C42", "title": "NamedUnionFind keeps names and members", "statement": "After any sequence of calls, find(x) returns the name most recently given to the set containing x.", "quantifier": "all operation sequences", "why_tests_cant": "Names and members are transferred along unbounded histories of unions.", "anchors": ["rosemary/data_structures/unionfind.py:NamedUnionFind"]}
{"id": "C43", "title": "LeftistHeap is a priority queue", "statement": "From any initial collection and after any sequence of insert, delete_min and merge, the heap holds the expected multiset, find_min/delete_min give a least element, and the leftist shape is kept.", "quantifier": "all operation sequences", "why_tests_cant": "The heap shape depends on the whole, unbounded history of insertions, merges and deletions.", "anchors": ["rosemary/data_structures/heaps.py:LeftistHeap"]}
{"id": "C44", "title": "PairingHeap is a priority queue with decrease_key", "statement": "Starting from an empty heap, insert and insert_values of values not in the heap, decrease_key of a value in the heap to a key that is not larger, and delete_min never raise or hang: insert adds the pair, decrease_key replaces the key of that value only, delete_min returns and removes a pair with a least key, or returns None for the empty heap; decrease_key of an absent value raises KeyError.", "quantifier": "all operation sequences", "why_tests_cant": "The pointer structure must stay consistent under unbounded interleavings of insert, decrease_key and delete_min.", "anchors": ["rosemary/data_structures/heaps.py:PairingHeap"]}
{"id": "C45", "title": "BITSieve counts unmarked positions", "statement": "After any sequence of mark/mark_multiples calls partial_sum(m) is the number of unmarked positions i with 1 <= i <= m.", "quantifier": "all sizes, all mark sequences, all m", "why_tests_cant": "The tree of partial sums must stay consistent for every size and every history of updates.", "anchors": ["rosemary/data_structures/bit_sieve.py"]}
{"id": "C46", "title": "polynomial and power series products are the true product", "statement": "list addition/subtraction and the classical and Karatsuba products of coefficient lists represent the exact sum, difference and product polynomial; the power series products are the full products.", "quantifier": "all integer coefficient lists of any length (including the recursive Karatsuba splitting)", "why_tests_cant": "Karatsuba's recursion depth and the relation of the operand lengths are unbounded.", "anchors": ["rosemary/algebra/polynomials/algorithms.py", "rosemary/algebra/power_series/power_series.py"]}
{"id": "C47", "title": "polynomial powers by the J.C.P. Miller recurrence are exact", "statement": "power_jcp(A, k) is the coefficient list of the k-th power for every nonzero polynomial; ps_power agrees on truncations.", "quantifier": "all coefficient lists, all k >= 0", "why_tests_cant": "Every floor division in the recurrence must be exact for every input.", "anchors": ["rosemary/algebra/polynomials/algorithms.py:power_jcp", "rosemary/algebra/power_series/power_series.py:ps_power"]}
{"id": "C48", "title": "power series inversion", "statement": "For a0 = 1 or -1, ps_invert(A) multiplied by A is 1 up to the precision.", "quantifier": "all series with unit constant term, all precisions", "why_tests_cant": "Newton's iteration must keep its precision for every requested number of terms.", "anchors": ["rosemary/algebra/power_series/power_series.py"]}
{"id": "C49", "title": "polynomial division identities", "statement": "pseudo_quo_rem(u, v) = (q, r) satisfies lc(v)^(deg u - deg v + 1) * u = q*v + r with deg r < deg v; quo_rem(a, b) = (q, r) satisfies a = q*b + r.", "quantifier": "all polynomials with nonzero divisor", "why_tests_cant": "The division identity and the degree bound must hold for all degrees and coefficients.", "anchors": ["rosemary/algebra/polynomials/polynomials.py"]}
{"id": "C50", "title": "Polynomial ring operations agree with evaluation", "statement": "Adding, subtracting, negating and multiplying Polynomial objects (and scalars on either side) commutes with evaluation at every point.", "quantifier": "all polynomials, scalars and points", "why_tests_cant": "Agreement with evaluation has to hold at all points for all degrees.", "anchors": ["rosemary/algebra/polynomials/polynomials.py:Polynomial"]}
{"id": "C51", "title": "matrix arithmetic", "statement": "The sum, difference, negative, multiples and products of integer matrices are those of linear algebra, for every pair of matrices for which they are defined; operands that do not fit raise a ValueError; delete_row and delete_col remove one row or column.", "quantifier": "all integer matrices of any size", "why_tests_cant": "Index and dimension slips show only for shapes nobody tried (a non-square product, a mismatched sum); all shapes have to be covered.", "anchors": ["rosemary/algebra/matrices/matrices.py"]}
{"id": "C52", "title": "combinations enumerates every t-subset once", "statement": "combinations(n, t) yields each t-element subset of {0..n-1} exactly once, each listed in decreasing order, in lexicographic order of the subsets.", "quantifier": "all 0 <= t <= n", "why_tests_cant": "Both completeness and absence of repetition are claims about all n and t; the lists grow exponentially.", "anchors": ["rosemary/combinatorics/generation/combinations.py"]}
{"id": "C53", "title": "n_tuples enumerates every mixed radix tuple once", "statement": "n_tuples yields every tuple (a1..an) with 0 <= ai < mi exactly once, in lexicographic order.", "quantifier": "all n and radices >= 1", "why_tests_cant": "Both completeness and absence of repetition are claims about all lengths and radices; the lists grow exponentially.", "anchors": ["rosemary/combinatorics/generation/tuples.py"]}
{"id": "C54", "title": "permutation generators list every arrangement once", "statement": "knuth_algorithm_l and phillips yield every distinct rearrangement of a multiset exactly once in lexicographic order; knuth_algorithm_l_variations does so for the arrangements of all sub-multisets and knuth_algorithm_l_rvariations(_, r) for those of size r.", "quantifier": "all finite lists over a total order", "why_tests_cant": "Both completeness and absence of repetition are claims about all lengths and repetition patterns; the lists grow like factorials.", "anchors": ["rosemary/combinatorics/generation/permutations.py"]}
{"id": "C55", "title": "partition generators are complete", "statement": "integer_partitions(n) yields every partition of n exactly once (with the requested number of parts / distinctness / allowed parts).", "quantifier": "all n and options", "why_tests_cant": "Partitions of unbounded size; a skipped partition would show up only at some sizes.", "anchors": ["rosemary/combinatorics/generation/partitions.py"]}
{"id": "C56", "title": "counting functions match what they count", "statement": "binomial(n, k), multinomial, bell_number(n) and stirling_number2(n, k) equal the number of k-subsets, multiset arrangements, set partitions and set partitions into k blocks.", "quantifier": "all n, k", "why_tests_cant": "Equality with a cardinality has to hold for all n and k; tables compare only finitely many.", "anchors": ["rosemary/combinatorics/enumeration/enumeration.py"]}
{"id": "C57", "title": "partition_list gives the partition numbers", "statement": "partition_list(n)[k] is the number of integer partitions of k for all k <= n.", "quantifier": "all n", "why_tests_cant": "The recurrence relies on the pentagonal number theorem, which no table establishes.", "anchors": ["rosemary/combinatorics/enumeration/enumeration.py"]}
{"id": "C58", "title": "necklaces counts rotation classes", "statement": "necklaces(n, k) is the number of length-n words over k letters up to rotation.", "quantifier": "all n >= 1, k", "why_tests_cant": "Orbit counting by a divisor sum has to agree with the number of orbits for all n and k.", "anchors": ["rosemary/combinatorics/enumeration/enumeration.py"]}
{"id": "C59", "title": "domino tilings", "statement": "number_of_domino_tilings(m, n) is the number of ways to tile an m by n board by dominoes.", "quantifier": "all m, n >= 1", "why_tests_cant": "There are exponentially many tilings, and the transfer of profiles must be right for boards of every size.", "anchors": ["rosemary/combinatorics/enumeration/enumeration.py"]}
{"id": "C60", "title": "knapsack solvers are optimal and feasible", "statement": "depth_first, dynamic_programming and branch_and_bound return a subset within capacity whose value is reported correctly and is maximal among feasible subsets.", "quantifier": "all instances with nonnegative weights and values", "why_tests_cant": "Pruning must never lose the optimum for any instance; wrong bounds show up only on rare ones.", "anchors": ["rosemary/combinatorics/optimization/knapsack.py"]}
{"id": "C61", "title": "exact cover search is sound and complete", "statement": "The exact cover solvers yield each exact cover exactly once and count them correctly.", "quantifier": "all finite families of sets", "why_tests_cant": "The state is changed and restored along every path of a backtracking search of unbounded size.", "anchors": ["rosemary/combinatorics/optimization/exact_cover.py"]}
{"id": "C62", "title": "tour heuristics return tours and depth_first is optimal", "statement": "depth_first and branch_and_bound return a shortest round trip through all cities with its length; farthest_insertion returns a round trip starting at city 0 with its length (or its set of edges); two_opt and steepest_ascent_two_opt end and return a round trip with its length, not longer than the initial one, that no reversal of a stretch shortens by more than the threshold; random_two_opt returns a permutation; simulated_annealing_two_opt ends whatever is drawn and returns a round trip with its length, not longer than the initial shuffle.", "quantifier": "all distance matrices", "why_tests_cant": "Optimality is a comparison with all (n-1)! tours, for every distance matrix, including ones that violate the triangle inequality or symmetry.", "anchors": ["rosemary/combinatorics/optimization/tsp.py:depth_first", "rosemary/combinatorics/optimization/tsp.py:branch_and_bound", "rosemary/combinatorics/optimization/tsp.py:farthest_insertion", "rosemary/combinatorics/optimization/tsp.py:two_opt", "rosemary/combinatorics/optimization/tsp.py:steepest_ascent_two_opt", "rosemary/combinatorics/optimization/tsp.py:simulated_annealing_two_opt"]}
{"id": "C63", "title": "graph adjacency stays symmetric", "statement": "After any sequence of Graph operations u is adjacent to v exactly when v is adjacent to u with the same weight, and edge and vertex queries agree with the history.", "quantifier": "all operation sequences", "why_tests_cant": "Symmetry is an invariant of unbounded histories of mutations.", "anchors": ["rosemary/graphs/graphs.py:Graph"]}
{"id": "C64", "title": "breadth first search visits exactly the reachable vertices in distance order", "statement": "breadth_first_search(G, s, max_depth) yields each vertex at distance <= max_depth exactly once and in nondecreasing distance.", "quantifier": "all graphs, sources and depths", "why_tests_cant": "Order by distance and completeness are claims about all vertices of arbitrary graphs, under all adjacency orders and depth limits.", "anchors": ["rosemary/graphs/algorithms/traversal.py"]}
{"id": "C65", "title": "depth first search visits exactly the reachable vertices", "statement": "Without a depth limit depth_first_search yields exactly the vertices reachable from the source, once each.", "quantifier": "all graphs", "why_tests_cant": "Exactness quantifies over all graphs and all adjacency orders.", "anchors": ["rosemary/graphs/algorithms/traversal.py"]}
{"id": "C66", "title": "connected components partition the vertices", "statement": "connected_components returns the classes of the reachability relation; is_connected is True exactly when there is one class.", "quantifier": "all graphs", "why_tests_cant": "That the classes are exactly those of the reachability relation is a statement about all walks of all graphs.", "anchors": ["rosemary/graphs/algorithms/connectivity.py"]}
{"id": "C67", "title": "Dijkstra returns shortest distances and paths", "statement": "For nonnegative weights dijkstra returns the exact shortest distance for every reachable vertex and predecessor links forming shortest paths.", "quantifier": "all weighted graphs", "why_tests_cant": "Minimality compares with infinitely many walks; stale heap entries and ties give many schedules.", "anchors": ["rosemary/graphs/algorithms/paths.py"]}
{"id": "C68", "title": "Bellman-Ford and Floyd-Warshall return shortest distances", "statement": "Whenever they return, distances equal the least walk weight.", "quantifier": "all weighted graphs", "why_tests_cant": "Minimality compares with all walks of all lengths for every weight function, negative weights included.", "anchors": ["rosemary/graphs/algorithms/paths.py"]}
{"id": "C69", "title": "bidirectional Dijkstra agrees with Dijkstra", "statement": "dijkstra_bidirectional(G, s, t) returns the shortest distance and a path of that length.", "quantifier": "all graphs with nonnegative weights and all s, t", "why_tests_cant": "The stopping criterion of the two interleaved searches has to be right for every schedule and every weight function.", "anchors": ["rosemary/graphs/algorithms/paths.py"]}
{"id": "C70", "title": "Prim and Kruskal return minimum spanning trees", "statement": "On a connected weighted graph prim and kruskal return a spanning tree of minimum total weight and that weight.", "quantifier": "all connected weighted graphs", "why_tests_cant": "Minimality compares with all spanning trees, of which there are up to n^(n-2), for every choice among equal weights.", "anchors": ["rosemary/graphs/algorithms/spanning_trees.py"]}
{"id": "C71", "title": "greedy and DSATUR colorings are proper", "statement": "greedy_sequential(graph, vertices, passes) and dsatur(graph) return a proper coloring of the given vertices in which exactly the reported number of colors occurs; each vertex gets the least color that no earlier neighbor has, at most (largest degree + 1) colors are used, a second pass never needs more colors than the first, and dsatur selects by saturation.", "quantifier": "all graphs and vertex orders", "why_tests_cant": "The claims quantify over all graphs, all vertex orders and all set iteration orders; improvement of the second pass is an inequality between two runs that no finite sample settles.", "anchors": ["rosemary/graphs/algorithms/coloring.py"]}
{"id": "C72", "title": "maximal clique enumeration is exact", "statement": "bron_kerbosch, bron_kerbosch_binary and tomita yield every maximal clique exactly once and nothing else; bron_kerbosch_binary does so in lexicographic order. maximal_independent_sets yields every maximal independent set exactly once.", "quantifier": "all simple graphs", "why_tests_cant": "Missing or repeating one maximal clique depends on how the sets of allowed and forbidden vertices evolve along every branch; a graph may have exponentially many cliques.", "anchors": ["rosemary/graphs/algorithms/cliques.py", "rosemary/graphs/algorithms/independent_sets.py"]}
{"id": "C73", "title": "maximum clique and independent set searches are exact", "statement": "maximum_clique (pardalos, pardalos_binary, ostergard, ostergard_binary) returns the size of a largest clique and the vertices of one, each once; the binary versions return the same clique as the others; maximum_weight_clique does so for the total of nonnegative vertex weights; independent_sets.branch_and_bound and maximum_independent_set return a largest independent set with its size.", "quantifier": "all graphs without loops, all set iteration orders, all nonnegative integer weights", "why_tests_cant": "Each bound used for pruning must be admissible on every graph; a wrong bound loses the optimum only on rare graphs.", "anchors": ["rosemary/graphs/algorithms/cliques.py:242-718", "rosemary/graphs/algorithms/independent_sets.py:10-65", "rosemary/graphs/algorithms/independent_sets.py:192-217"]}
{"id": "C74", "title": "degree sequence recognition", "statement": "is_graphic(S) never raises and returns True exactly when S is the list of the degrees of the vertices of a simple graph.", "quantifier": "all finite lists of integers", "why_tests_cant": "There are exponentially many graphs behind every sequence; that a greedy reduction by the largest degree never loses realizability is the theorem of Havel and Hakimi.", "anchors": ["rosemary/graphs/algorithms/degree_sequences.py:is_graphic"]}
{"id": "C75", "title": "hamiltonian path search is exact", "statement": "hamiltonian_paths yields every sequence that visits all vertices once along edges, each exactly once; hamiltonian_paths_con, which prunes disconnected remainders, yields the same sequence of paths; is_connected2(graph, allowed) decides whether any two allowed vertices are joined inside allowed; number_of_hamiltonian_paths, _bits, _bits_con, 5 and 5_con return the number of Hamiltonian paths.", "quantifier": "all graphs", "why_tests_cant": "The number of Hamiltonian paths is exponential and pruning by reachability must be sound on every graph.", "anchors": ["rosemary/graphs/algorithms/hamiltonian_paths.py", "rosemary/graphs/algorithms/hamiltonian_paths.py:hamiltonian_paths", "rosemary/graphs/algorithms/hamiltonian_paths.py:number_of_hamiltonian_paths5"]}
{"id": "C76", "title": "memoisation is transparent", "statement": "A function wrapped by cached_function returns the same values as the unwrapped pure function under every call history.", "quantifier": "all call histories", "why_tests_cant": "Every interleaving of hits and misses, including recursive calls that fill the cache, must give the same value.", "anchors": ["rosemary/utilities.py:cached_function"]}
{"id": "C77", "title": "three term progression detection", "statement": "has_three_term_ap(A) on a sorted list is True exactly when A contains a three term arithmetic progression.", "quantifier": "all sorted lists", "why_tests_cant": "The two moving pointers must not skip any middle element in lists of unbounded length.", "anchors": ["rosemary/number_theory/arithmetic_progressions.py"]}
{"id": "C78", "title": "alphametic pruning is sound", "statement": "The solver returns exactly the digit assignments satisfying the puzzle.", "quantifier": "all puzzles", "why_tests_cant": "The divisibility pruning discards partial assignments; that none of them extends to a solution is a claim about all puzzles.", "anchors": ["rosemary/combinatorics/recreational/alphametics.py"]}
{"id": "C79", "title": "Fibonacci primitive roots", "statement": "For prime p, fibonacci_primitive_roots(p) returns the sorted list of exactly the primitive roots x mod p in [0, p) with x^2 congruent to x + 1.", "quantifier": "all primes p and all random choices", "why_tests_cant": "A finite table of primes cannot establish completeness of the quadratic solution or the primitivity filter for every prime, and the square root step uses random choices.", "anchors": ["rosemary/number_theory/zn_arithmetic.py:fibonacci_primitive_roots"]}
{"id": "C80", "title": "prime_range yields the primes of an interval", "statement": "prime_range(a, b) yields, in increasing order, exactly the primes p with a <= p < b, for both the table branch (b <= 10**7) and the segmented sieve (b > 10**7).", "quantifier": "all 2 <= a < b", "why_tests_cant": "The behaviour at the two end points depends on the primality of a and b and on the branch; segment boundaries and offsets must be right for every prime and every block.", "anchors": ["rosemary/number_theory/primes/sieves.py:prime_range"]}
{"id": "C81", "title": "eta_series and delta_series are Euler's product and its 24th power", "statement": "eta_series(prec) returns the first prec coefficients of (1 - x)(1 - x^2)(1 - x^3)..., and delta_series(n) the first n coefficients of the 24th power of that product (so its entry n is Ramanujan's tau(n + 1)).", "quantifier": "all prec >= 1", "why_tests_cant": "The series is built from the pentagonal exponents; that this is the infinite product for every coefficient is Euler's pentagonal number theorem.", "anchors": ["rosemary/algebra/power_series/power_series.py:eta_series", "rosemary/algebra/power_series/power_series.py:delta_series"]}
{"id": "C82", "title": "r-th powers of the partition generating function", "statement": "rth_power_partition_number(r, n) is the coefficient of q^n in the r-th power of the generating function of the partition numbers.", "quantifier": "all r >= 1 and n >= 0", "why_tests_cant": "The recurrence must hold for every r and n; a table only covers finitely many.", "anchors": ["rosemary/combinatorics/enumeration/enumeration.py:rth_power_partition_number"]}
{"id": "C83", "title": "bipartitions counts partitions of pairs", "statement": "bipartitions(m, n) is the number of multisets of pairs of natural numbers, none of them (0, 0), with sum (m, n).", "quantifier": "all m, n >= 0", "why_tests_cant": "The table is updated in place, in an order that must never use an entry twice or skip one, for boards of every size.", "anchors": ["rosemary/combinatorics/enumeration/enumeration.py:bipartitions"]}
{"id": "C84", "title": "triomino tilings", "statement": "triomino_tilings(m, n) is the number of ways to tile an m by n board by triominoes (three squares connected by edges), whatever entries of its cache are found again.", "quantifier": "all m, n >= 1 and all cache hit patterns", "why_tests_cant": "Exponentially many tilings; the list of six placements must be complete for every partially covered board.", "anchors": ["rosemary/combinatorics/enumeration/enumeration.py:triomino_tilings"]}
{"id": "C85", "title": "domino_tilings counts the domino tilings of a square board", "statement": "domino_tilings(n) (the exact cover version) is the number of ways to tile the n by n board by dominoes.", "quantifier": "all n >= 0", "why_tests_cant": "The bit encoding of the dominoes and the cover count must be right for every board size; only tiny boards can be counted by hand.", "anchors": ["rosemary/combinatorics/optimization/exact_cover.py:domino_tilings", "rosemary/combinatorics/optimization/exact_cover.py:domino_ints"]}
{"id": "C86", "title": "langford_pairings counts Langford pairings up to reversal", "statement": "langford_pairings(n) is half the number of words of length 2n over 1..n in which every p occurs exactly twice, with exactly p entries between the two occurrences; reversal never fixes such a word, so this is the number up to reversal.", "quantifier": "all n >= 0", "why_tests_cant": "The number of pairings grows superexponentially; the encoding must be right for every n.", "anchors": ["rosemary/combinatorics/optimization/exact_cover.py:langford_pairings", "rosemary/combinatorics/optimization/exact_cover.py:langford_ints"]}
{"id": "C87", "title": "extreme degrees and vertex orders of a Graph", "statement": "maximum_degree, minimum_degree, maximum_degree_vertex and minimum_degree_vertex return the extreme degrees and vertices that attain them (ValueError without vertices); vertices(order='induced') lists every vertex once, each of least degree in the graph without the vertices listed before it; vertices(order='degree') lists them by nondecreasing degree.", "quantifier": "all graphs built by any sequence of operations and every iteration order of Python sets", "why_tests_cant": "The order of iteration over a set is not specified, and the elimination order depends on every intermediate graph.", "anchors": ["rosemary/graphs/graphs.py:Graph.maximum_degree", "rosemary/graphs/graphs.py:Graph.minimum_degree_vertex", "rosemary/graphs/graphs.py:Graph.vertices"]}
{"id": "C88", "title": "named graphs are what they claim to be", "statement": "complete_graph(n), coprime_pairs_graph(n), grid_graph(n), random_graph(n, d) and petersen_graph() have the documented vertices, and two vertices are adjacent exactly when the documented relation holds.", "quantifier": "all n", "why_tests_cant": "Index arithmetic has to be right for every n, in particular at the border of the grid and for the smallest n.", "anchors": ["rosemary/graphs/graphs.py:complete_graph", "rosemary/graphs/graphs.py:coprime_pairs_graph", "rosemary/graphs/graphs.py:grid_graph", "rosemary/graphs/graphs.py:random_graph", "rosemary/graphs/graphs.py:petersen_graph"]}
{"id": "C89", "title": "longest_ap returns exactly the longest progressions", "statement": "longest_ap(A) on a strictly increasing list returns exactly the longest increasing arithmetic progressions formed by elements of A, each once, in lexicographic order.", "quantifier": "all strictly increasing lists of integers", "why_tests_cant": "The table of pairs is filled by a two pointer scan that never looks at most triples; that no pair is missed and no length is wrong must hold for every list.", "anchors": ["rosemary/number_theory/arithmetic_progressions.py:longest_ap"]}
{"id": "C90", "title": "the Erdos-Gallai test", "statement": "is_graphic_erdos_gallai(S) returns True exactly when S is the list of the degrees of the vertices of a simple graph.", "quantifier": "all finite lists of integers", "why_tests_cant": "The inequalities have to be necessary and sufficient for every sequence; small examples do not show what is missing.", "anchors": ["rosemary/graphs/algorithms/degree_sequences.py:is_graphic_erdos_gallai"]}
{"id": "C91", "title": "determinant of a matrix", "statement": "determinant() of a square integer matrix returns its determinant and leaves the matrix unchanged; a matrix that is not square raises a ValueError.", "quantifier": "all integer matrices of any size", "why_tests_cant": "Fraction free elimination divides by earlier pivots; exactness of every division and the handling of zero pivots must hold for all entries, and the patterns of zeros that need a row exchange are countless.", "anchors": ["rosemary/algebra/matrices/matrices.py:determinant"]}
{"id": "C92", "title": "branch and bound coloring returns the chromatic number", "statement": "coloring.branch_and_bound(graph) returns the chromatic number k of the graph together with a proper coloring of all vertices by k colors.", "quantifier": "all nonempty graphs and all set iteration orders", "why_tests_cant": "Two pruning rules and the symmetry breaking (at most one new color per step) must never lose every optimal coloring; the search space is exponential, so tests reach only small graphs.", "anchors": ["rosemary/graphs/algorithms/coloring.py:branch_and_bound"]}
{"id": "C93", "title": "independent set heuristics return independent sets", "statement": "independent_sets.greedy(graph) and culberson(graph) return an independent set of the graph together with its size, and no vertex can be added to it; greedy lists it in increasing order.", "quantifier": "all graphs, all set iteration orders, all outcomes of random.choice", "why_tests_cant": "The result depends on the random choices and on the graph that remains after each deletion; maximality has to survive every sequence of choices.", "anchors": ["rosemary/graphs/algorithms/independent_sets.py:68-119", "rosemary/graphs/algorithms/independent_sets.py:122-189"]}
{"id": "C94", "title": "General quadratic irrationals have the right continued fraction", "statement": "QuadraticIrrational(d, p, q) terminates and its partial_quotients are those of the real number (p + sqrt(d))/q, a preperiod followed by a nonempty repeating period; for q = 0 it raises ZeroDivisionError, and for square or negative d ValueError.", "quantifier": "all integers d, p, q", "why_tests_cant": "The loop must detect the first repetition of a complete quotient for every discriminant; periods are unbounded and the scaling of (d, p, q) when q does not divide d - p^2 has many cases.", "anchors": ["rosemary/number_theory/continued_fractions.py:_initialize_quadratic"]}
{"id": "C95", "title": "The solutions of the generalised Pell equation are complete", "statement": "pell_minimal_positive_solutions(D, N) lists the least positive solution of every class of x^2 - D*y^2 = N, each once and in order, and pell_solution_generator(D, N, B) yields exactly the positive solutions bounded by B, each once; every pair solves the equation and a square or nonpositive D raises ValueError.", "quantifier": "all D, N and all bounds", "why_tests_cant": "Completeness quantifies over infinitely many solutions of an equation whose least solutions can be astronomically large.", "anchors": ["rosemary/number_theory/diophantine_equations/pell.py:pell_minimal_positive_solutions", "rosemary/number_theory/diophantine_equations/pell.py:pell_solution_generator"]}
{"id": "C96", "title": "dijkstra_pairing_heap computes the distances", "statement": "For a graph without negative weights dijkstra_pairing_heap(graph, s) returns for every vertex its distance from s (inf if it cannot be reached) and links that lead along a shortest path; s is linked to None and vertices that cannot be reached have no entry; the distances agree with those of dijkstra, and a start that is not a vertex raises ValueError.", "quantifier": "all graphs that operations can build, all nonnegative weights, all starts", "why_tests_cant": "The heap is a pointer structure with decrease_key; correctness depends on every interleaving of inserts, decreases and deletions that a graph can cause.", "anchors": ["rosemary/graphs/algorithms/paths.py:dijkstra_pairing_heap"]}
{"id": "C97", "title": "dijkstra_buckets returns exactly for natural weights that can be reached", "statement": "dijkstra_buckets(graph, s) returns if and only if every edge at a vertex reachable from s has a nonnegative int weight, and then gives the distances and shortest path links; a reachable weight that is not an int raises ValueError (if no reachable weight is negative), as does a start that is not a vertex. The documented ValueError for any non-integral edge is not raised for edges that are not reached.", "quantifier": "all graphs, all weights, all starts", "why_tests_cant": "The bucket list grows while it is iterated and the search for the next bucket need not terminate; termination for all inputs is not observable.", "anchors": ["rosemary/graphs/algorithms/paths.py:dijkstra_buckets"]}
{"id": "C98", "title": "euler_phi_inverse returns exactly the solutions of phi(k) = n, in increasing order", "statement": "For every n >= 1 that factor() factors correctly, euler_phi_inverse(n) terminates and returns the strictly increasing list of all integers k with phi(k) = n (an empty list when there are none, in particular for odd n > 1). A factorization of n with increasing keys gives the same. n <= 0 raises ValueError, as does a factorization with a sign entry.", "quantifier": "all positive integers n and all solutions k, no bound on k", "why_tests_cant": "Completeness means that no k of any size was overlooked; a test compares with a finite search for a handful of n.", "anchors": ["rosemary/number_theory/arithmetic_functions/inverse_functions.py:13-100"]}
{"id": "C99", "title": "inverse_phi returns exactly the solutions of phi(k) = n", "statement": "For every n >= 1, inverse_phi(n) terminates and returns the sorted list of all integers k with phi(k) = n, without repetition.", "quantifier": "all positive integers n", "why_tests_cant": "The dictionary is modified while it is iterated over; whether that raises, skips or repeats entries depends on n in a way samples do not reveal.", "anchors": ["rosemary/number_theory/arithmetic_functions/inverse_functions.py:103-125"]}
{"id": "C100", "title": "largest_divisor returns the largest divisor of n not above b", "statement": "For positive integers n and b with b <= n, largest_divisor(n, b) returns the largest d dividing n with d <= b.", "quantifier": "all positive n and b", "why_tests_cant": "The claim quantifies over all divisors of n and all pairs (n, b); there is no test of the function.", "anchors": ["rosemary/number_theory/misc.py:9-72"]}
{"id": "C101", "title": "maximize_divisors finds the maximal number of divisors", "statement": "For every B >= 1 (below the product of the primes of the table), maximize_divisors(B) returns (t, n) with 1 <= n <= B, n has exactly t divisors, and no positive integer m <= B has more than t divisors.", "quantifier": "all B >= 1 up to the product of the prime table, all m <= B", "why_tests_cant": "Optimality over all m <= B cannot be observed for large B; the search space is cut down by an argument about sorted exponents that has to be proved.", "anchors": ["rosemary/number_theory/misc.py:75-136"]}
{"id": "C102", "title": "bernoulli_list returns the Bernoulli numbers", "statement": "For every n >= 0, bernoulli_list(n) is the list of the exact Bernoulli numbers B_0, ..., B_n with B_1 = -1/2.", "quantifier": "all n >= 0", "why_tests_cant": "An infinite family of exact rational identities; tests compare a finite prefix.", "anchors": ["rosemary/number_theory/misc.py:139-175"]}
{"id": "C103", "title": "Meissel's method and the Lagarias-Miller-Odlyzko method count the primes", "statement": "meissel(n) and lmo(n) return the number of primes p <= n: for every n the combinatorial recursion (the partial sieve function phi with its memo, closed forms for small arguments, the special leaves and the sieve over blocks) agrees with counting the primes one by one.", "quantifier": "all integers n, all prime tables that the package could load; for meissel additionally all rounding behaviours of the float roots that give the exact floors up to n", "why_tests_cant": "the answer is a sum of thousands of signed terms whose cut-offs depend on roots of n and on where primes fall near them, so off-by-one errors show up only at isolated n that no sample is likely to contain", "anchors": ["rosemary/number_theory/primes/prime_counting.py"]}
{"id": "C104", "title": "Lehmer's method counts the primes", "statement": "lehmer(n) returns the number of primes p <= n.", "quantifier": "all integers n", "why_tests_cant": "a shortcut inside the recursion is wrong only when no prime lies in a short interval whose ends depend on n (for example n = p**4 - 1 for a prime p), which random or round test values never hit", "anchors": ["rosemary/number_theory/primes/prime_counting.py"]}
{"id": "C105", "title": "distance_network_heuristic returns a Steiner tree within twice the optimum", "statement": "For a graph with nonnegative weights and at least two distinct terminals in one component, distance_network_heuristic(graph, terminals) returns (weight, edges) where edges is a tree of the graph containing all terminals, weight is its total weight, every leaf is a terminal, and t * weight <= 2 (t - 1) * OPT for t terminals and the weight OPT of any tree containing the terminals.  Terminals that are not vertices raise ValueError.", "quantifier": "all graphs built with the graph API, all nonnegative weights, all terminal lists, all iteration orders of sets", "why_tests_cant": "an approximation guarantee compares the result with the best of exponentially many trees, and the order in which sets are iterated changes from run to run", "anchors": ["rosemary/graphs/algorithms/steiner_trees.py"]}
{"id": "C106", "title": "minimum_cost_paths_heuristic returns a Steiner tree within twice the optimum", "statement": "For a graph with positive weights and at least two distinct terminals in one component, minimum_cost_paths_heuristic(graph, terminals) terminates and returns (weight, edges) where edges is a tree of the graph containing all terminals, weight is its total weight, every leaf is a terminal, and t * weight <= 2 (t - 1) * OPT for t terminals and the weight OPT of any tree containing the terminals.  It is the lightest of the trees grown from each terminal, so that for a given iteration order of sets the weight does not depend on the order of the terminals or on repetitions.  Terminals that are not vertices raise ValueError.", "quantifier": "all graphs built with the graph API, all positive weights, all terminal lists, all iteration orders of sets", "why_tests_cant": "an approximation guarantee compares the result with the best of exponentially many trees, ties between shortest paths are broken by the iteration order of sets, and termination depends on no terminal being passed over", "anchors": ["rosemary/graphs/algorithms/steiner_trees.py"]}
{"id": "C107", "title": "cheriton_tarjan returns a minimum spanning tree", "statement": "For every connected graph and every random choice, cheriton_tarjan(graph) returns (weight, edges) where edges are the sorted increasing pairs of a spanning tree of least total weight, and weight is this weight; if the graph is not connected it returns a minimum spanning tree for each component.", "quantifier": "all graphs built with the graph API, all weights, all outcomes of random.choice", "why_tests_cant": "optimality compares with all spanning trees, and the path through the algorithm is random: a test sees one of exponentially many merge orders", "anchors": ["rosemary/graphs/algorithms/spanning_trees.py"]}
{"id": "C108", "title": "Exact coloring by Korman's algorithm", "statement": "On a graph with vertices and without loops, exact_coloring(graph) (which is korman(graph)) ends and returns the chromatic number k together with a proper coloring that uses exactly the k colors 1, ..., k, or, with classes=True, the k color classes of that coloring, which partition the vertices.", "quantifier": "for all graphs without loops built by any sequence of operations, all orders of set iteration, both values of classes", "why_tests_cant": "Optimality is a statement about all colorings of all graphs, and the search backtracks through exponentially many states; a finite list of graphs cannot show that no branch with a better coloring is cut off nor that the search always ends. (Finding: an isolated vertex is never chosen as the next vertex, so the search raises UnboundLocalError or does not end.)", "anchors": ["rosemary/graphs/algorithms/coloring.py:486-632", "rosemary/graphs/algorithms/coloring.py:635-699"]}
{"id": "C109", "title": "maxis colors by extracting independent sets", "statement": "maxis(graph) ends and returns (k, color_classes), where color_classes is a partition of the vertices into k nonempty independent sets: while more than color_limit vertices are left a nonempty independent set of them is taken away, a maximum one if at most mis_limit vertices are left and a maximal one if use_greedy is set, and the rest is colored with the least number of colors; with classes=False the color map of the same classes is returned.", "quantifier": "for all graphs without loops built by any sequence of operations, all limits, all orders of set iteration, all random choices, both values of classes and use_greedy", "why_tests_cant": "The classes depend on the random choices and on three different searches, and that all vertices are covered exactly once must hold after any number of rounds. (Finding: on graphs without edges the call raises UnboundLocalError or does not end; with a negative color_limit it does not end.)", "anchors": ["rosemary/graphs/algorithms/coloring.py:202-336"]}
{"id": "C110", "title": "Adjacency, degree and Laplacian matrix, density", "statement": "For a graph with vertices v_0 < ... < v_(n-1), n > 0, adjacency_matrix() is the n x n matrix with 1 at (i, j) if v_i and v_j are adjacent and 0 otherwise, degree_matrix() is the diagonal matrix of the degrees, and laplacian_matrix() is their difference, whose rows and columns all add up to 0 and which is symmetric. density() is the number of edges divided by the number of pairs of vertices, between 0 and 1 for a graph without loops, and adds up to 1 with the density of the complement; with at most one vertex it raises ZeroDivisionError. The matrices of the empty graph raise IndexError. remove_edge returns a graph without that edge which is otherwise the same.", "quantifier": "for all graphs built by any sequence of operations, all edges", "why_tests_cant": "The matrices index the vertices by their rank in sorted order, and the loops run over all pairs; a test sees a few graphs whose vertices usually are 0, ..., n - 1.", "anchors": ["rosemary/graphs/graphs.py:398-424", "rosemary/graphs/graphs.py:735-778", "rosemary/graphs/graphs.py:836-939"]}
{"id": "C111", "title": "The Laplacian matrix counts spanning trees", "statement": "For a graph with at least two vertices and every index i of a vertex, graph.laplacian_matrix().delete_row(i).delete_col(i).determinant() returns the number of spanning trees of the graph (and 0 if it is not connected).", "quantifier": "for all graphs with at least two vertices built by any sequence of operations, all vertices i", "why_tests_cant": "The number of spanning trees grows like n^(n-2), so a test can compare with an enumeration only for tiny graphs; that fraction-free elimination without a search for the right pivot never goes wrong here needs that all leading minors of a connected graph are positive. (Finding: for two vertices without an edge the determinant of [[0]] raises UnboundLocalError.)", "anchors": ["rosemary/graphs/graphs.py:909-939", "rosemary/matrices/matrices.py"]}
{"id": "C112", "title": "The Sudoku solver", "statement": "sudoku_dlx(a), for a string a of at most 81 digits that lists the cells row by row with 0 for a blank (cells missing at the end are blank), returns the 81 digits of a grid in which every row, column and 3 x 3 box has nine different digits from 1 to 9 and which agrees with a on all cells that are not blank; if there is no such grid StopIteration is raised. A character that is no digit raises ValueError, and a digit after 81 digits raises IndexError.", "quantifier": "for all strings, whether or not the puzzle has a solution or has several, all orders of iteration of sets", "why_tests_cant": "There are 10^81 inputs and the search order depends on string hashing; that a solution is found whenever one exists, and that each answer obeys all 324 constraints, is a statement about the whole search.", "anchors": ["rosemary/combinatorics/optimization/exact_cover.py:4-60", "rosemary/combinatorics/optimization/exact_cover.py:252-308"]}
{"id": "C113", "title": "Latin squares as exact covers", "statement": "ExactCoverBinary(latin_square_ints(n)).number_of_solutions() is the number of Latin squares of order n, that is of n x n tables with entries from n symbols in which no row and no column repeats a symbol.", "quantifier": "for all n >= 0", "why_tests_cant": "The number of Latin squares is known only up to n = 11, so a test can compare with the literature for a few n only; the claim is a bijection between covers of 3n^2 bits and squares.", "anchors": ["rosemary/combinatorics/optimization/exact_cover.py:129-171", "rosemary/combinatorics/optimization/exact_cover.py:230-249"]}
{"id": "C114", "title": "farey finds the least solution of x^2 - D y^2 = N for small N", "statement": "farey(D, N) only ever returns a solution of x**2 - D*y**2 == N in coprime positive integers; for D > 0 and small |N| it returns the least such solution if there is one and otherwise runs forever; in particular farey(D, 1) terminates for every nonsquare D and agrees with pell_fundamental_solution.", "quantifier": "all integers D, N; for completeness D > 0 and 0 < N <= 2 sqrt(D) or -sqrt(D) <= N <= 0", "why_tests_cant": "The least solution can be astronomically large compared to D, and whether the endless loop is entered depends on the existence of a solution.", "anchors": ["rosemary/number_theory/diophantine_equations/pell.py:311-328"]}
{"id": "C115", "title": "pell_small yields exactly the coprime solutions", "statement": "For a positive nonsquare D and |N| < sqrt(D), pell_small(D, N) yields every solution of x**2 - D*y**2 == N in coprime positive integers, in increasing order, each once, and nothing else; it raises ValueError for D <= 0, square D and N >= D**2.", "quantifier": "all D and N; the generator is infinite, the claim is about all its prefixes", "why_tests_cant": "An infinite generator over the convergents of a continued fraction: completeness is a statement about all solutions of an equation with infinitely many.", "anchors": ["rosemary/number_theory/diophantine_equations/pell.py:167-177"]}
{"id": "C116", "title": "_pell_small_minimal_positive_solutions gives one solution per class", "statement": "For a positive nonsquare D and 0 < |N| < sqrt(D) the returned list is sorted, holds exactly the positive solutions of x**2 - D*y**2 == N below the fundamental solution (relative to their common divisor), every positive solution is one of them times a power of the fundamental solution, and no two of them are related in this way.", "quantifier": "all D and N", "why_tests_cant": "Completeness quantifies over the infinitely many solutions of the equation and over all D.", "anchors": ["rosemary/number_theory/diophantine_equations/pell.py:180-205"]}
{"id": "C117", "title": "content and primitive_part of a polynomial", "statement": "content is the nonnegative greatest common divisor of the coefficients; primitive_part has coprime coefficients and a positive leading coefficient, and the polynomial is plus or minus the product of the two; != compares polynomials with polynomials and numbers.", "quantifier": "all integer polynomials", "why_tests_cant": "A fold of gcds over a list of any length with signs; tests do not reach the constants, where the sign convention breaks.", "anchors": ["rosemary/algebra/polynomials/polynomials.py:237-252", "rosemary/algebra/polynomials/polynomials.py:410-436"]}
{"id": "C118", "title": "Polynomial.gcd returns a greatest common divisor", "statement": "f.gcd(g) is a common divisor of f and g in Z[x] that every common divisor divides, whatever the order of the operands.", "quantifier": "all pairs of nonzero integer polynomials", "why_tests_cant": "The claim quantifies over all common divisors; the loop of pseudo divisions behaves differently in its first and its later rounds, which samples with a single round cannot show.", "anchors": ["rosemary/algebra/polynomials/polynomials.py:374-409"]}
{"id": "C119", "title": "lmo_bit counts the primes", "statement": "lmo_bit(x) is the number of primes up to x.", "quantifier": "all integers x >= 8", "why_tests_cant": "An analytic recurrence over the leaves of a tree with a partial sieve; errors only show at particular arguments such as cubes of primes.", "anchors": ["rosemary/number_theory/primes/prime_counting.py:302-352"]}
{"id": "C120", "title": "cfrac returns a proper divisor", "statement": "For composite n > 1, cfrac(n) (with any positive multiplier k) terminates and returns a divisor d with 1 < d < n; every pair (x, y) it forms satisfies x**2 == y**2 (mod n); _cfrac_multiplier(n) is the least k < 1000 that admits 3, 5 and as many odd primes up to 31 as possible to the factor base.", "quantifier": "all composite n > 1, all positive multipliers k, all smoothness bounds B >= 2", "why_tests_cant": "The loop runs through a continued fraction until enough smooth values are found: termination depends on the period of sqrt(kn), and failures (None, ZeroDivisionError) only occur for particular n such as squares.", "anchors": ["rosemary/number_theory/factorization/algorithms.py:436-567", "rosemary/number_theory/factorization/algorithms.py:810-857"]}
{"id": "C121", "title": "is_power2 finds every perfect power", "statement": "For n >= 2, is_power2(n) returns (r, k) with r**k == n, k >= 2 and k the smallest such exponent if n is a perfect power, and False otherwise; for n < 2 it returns False.", "quantifier": "every integer n", "why_tests_cant": "The search uses rounded square roots and integer k-th roots; tests only try a handful of powers, and a root off by one would miss some large power.", "anchors": ["rosemary/number_theory/classification.py:109-140"]}
{"id": "C122", "title": "primorial is the product of the first n primes", "statement": "primorial(n) for n >= 1 is the product of the n smallest primes, provided the estimate for the n-th prime is large enough; for n <= 0 it raises ValueError.", "quantifier": "every n, every table and estimate", "why_tests_cant": "The number of primes found depends on a float estimate; tests check a few n.", "anchors": ["rosemary/number_theory/arithmetic_functions/functions.py:508-540"]}
{"id": "C123", "title": "odd_graph is the Kneser graph on (k-1)-subsets", "statement": "odd_graph(k) has one vertex per (k-1)-element subset of {0, ..., 2k-2} and joins disjoint subsets.", "quantifier": "every k", "why_tests_cant": "The vertices are named by digit strings; the tests use k <= 5, where every number has one digit. From k = 6 on the names mix digits of different numbers.", "anchors": ["rosemary/graphs/graphs.py:1204-1251"]}
{"id": "C124", "title": "The graph loaders read exactly the edges in the file", "statement": "load_graph and load_dimacs_graph return the graph whose edges are exactly the pairs on the (edge) lines, and raise ValueError if a line does not have two numbers.", "quantifier": "every list of lines", "why_tests_cant": "Files with repeated edges, reversed edges, comments or blank lines are not covered by tests.", "anchors": ["rosemary/graphs/graphs.py:1109-1169"]}
{"id": "C125", "title": "BITSieve.update rebuilds all block sums", "statement": "After any values are written to level 0 of a BITSieve, update() makes partial_sum(m) equal to the sum of the first m values for every m up to n.", "quantifier": "every size, all values, any stale upper levels", "why_tests_cant": "The number of levels depends on n; tests use one size and 0/1 values.", "anchors": ["rosemary/data_structures/bit_sieve.py:28-35"]}
{"id": "C126", "title": "Reflected matrix operators and item access", "statement": "For matrices, __radd__ and __rsub__ give other + self and other - self, __rmul__ gives other * self; M[i, j] and M[i, j] = x address the item with Python's index rules and raise IndexError outside.", "quantifier": "all sizes, all entries, all indices", "why_tests_cant": "Reflected operators are only reached in rare dispatch cases and tests do not call them with non-commuting matrices.", "anchors": ["rosemary/algebra/matrices/matrices.py:76-90", "rosemary/algebra/matrices/matrices.py:122-258"]}
{"id": "C127", "title": "The genetic TSP's two_opt returns a tour with its length, not longer, and optimal for exchanges to near neighbours", "statement": "In rosemary/combinatorics/optimization/genetic_tsp.py, two_opt(path) on any permutation of the n >= 1 cities terminates and returns (cost, path) where path is a permutation of the cities, cost is its closed length, and it is not longer than the input. For consecutive cities a,b and e,c of the result with d(b,c) < d(a,b) and c among the 20 cities nearest to b, replacing the two edges gains at most eps. It is not a full 2-opt optimum: there are four points in the plane for which a tour of length 108 is returned unchanged although reversing a segment gives 98.", "quantifier": "all symmetric distances, all n >= 1, all start tours, all eps >= 0", "why_tests_cant": "The loop restarts after every move, so termination and local optimality are statements about all tours and all distances; tests can only sample point sets.", "anchors": ["rosemary/combinatorics/optimization/genetic_tsp.py:22-117"]}
{"id": "C128", "title": "Children in the genetic TSP are tours built from both parents", "statement": "mgkrec(A, B) with n >= 20 points returns two (cost, path) pairs; each path is two_opt of the tour that starts with h circularly consecutive cities of one parent followed by the remaining cities in the order of the other parent; every child visits every city exactly once and its cost is its length. With fewer than 20 points mgkrec raises ValueError, because randint(10, n//2) has an empty range.", "quantifier": "all n, all parent tours, all random draws h, j", "why_tests_cant": "Randomised crossover: validity must hold for every draw of h and j and all parents; tests see only seeded runs.", "anchors": ["rosemary/combinatorics/optimization/genetic_tsp.py:119-144"]}
{"id": "C129", "title": "The genetic TSP's solve returns the best cost seen, but not the tour that has it", "statement": "solve(popsize, cmax) with n >= 20 points returns (best_cost, Xbest) where best_cost is the length of some tour and at most the length of each two-opted initial tour. If no generation improved the initial best, Xbest is a tour with this length. Otherwise Xbest is the list [cost, path] of the second best member, whose cost is at least best_cost: there are 20 points and draws for which solve(2, 1) returns 720 together with [722, path]. popsize 0 raises IndexError; fewer than 20 points with popsize >= 2 and cmax >= 1 raises ValueError.", "quantifier": "all symmetric distances, n, popsize, cmax, all shuffles and draws", "why_tests_cant": "Holds for all random executions; the defect only shows when a child improves on the initial best, which depends on the draws.", "anchors": ["rosemary/combinatorics/optimization/genetic_tsp.py:146-173"]}
{"id": "C130", "title": "gabow yields spanning trees in order of weight, each once, none skipped", "statement": "For a connected weighted graph built by any sequence of add/delete operations, gabow(graph, k) yields at least one pair (weight, edges): edges is sorted and is a spanning tree of the graph, weight is its total weight. No tree is yielded twice, the weights do not decrease, and every spanning tree that was not yielded weighs at least as much as every yielded one. At most max(1, k) trees are yielded; if the generator ends normally it has yielded max(1, k) trees or all of them, and it can only end otherwise if the comparison of two heap entries raises. With a comparison of heap entries that never raises, gabow(graph) yields exactly the spanning trees. The empty graph raises IndexError; a graph that is not connected raises KeyError or TypeError before anything is yielded.", "quantifier": "all graphs with weights in an ordered group, all k, all iteration orders of the edge set, all comparisons of heap entries that compare weights first", "why_tests_cant": "The statement compares the yielded trees with all spanning trees of the graph, of which there are exponentially many; tests compare with known counts on one or two graphs.", "anchors": ["rosemary/graphs/algorithms/spanning_trees.py:294-395"]}
{"id": "C131", "title": "Under Python 3 gabow cannot be run to its end on a graph with three spanning trees", "statement": "With Python 3's comparison of tuples, where dictionaries and None cannot be ordered, gabow(graph, k) on a connected graph with at least three spanning trees, and k = None or k larger than the number of spanning trees, always ends with a TypeError: the heap then holds two entries (inf, None, None, father, ...) and comparing them reaches the dictionaries father, which differ.", "quantifier": "all connected graphs with at least three spanning trees, all iteration orders of the edge set", "why_tests_cant": "Whether heap entries tie depends on weights and on the order of pushes; that no graph and no order escapes the error is a statement about all of them.", "anchors": ["rosemary/graphs/algorithms/spanning_trees.py:294-395"]}
{"id": "C132", "title": "maximal_cliques and maximum_clique give the same answer with every supported algorithm", "statement": "For a graph without loops, maximal_cliques(graph, algorithm) with 'tomita', 'bron_kerbosch' or 'bron_kerbosch_binary' lists every maximal clique exactly once and nothing else. If the graph has a vertex, maximum_clique(graph, algorithm) with 'ostergard' or 'pardalos' returns a maximum clique with its size, so both report the same size. Any other name gives None, without an exception.", "quantifier": "all graphs without loops built by any operations, all algorithm names, all iteration orders of sets and choices of set.pop", "why_tests_cant": "Agreement of five different searches on all graphs and set orders; tests compare a few graphs.", "anchors": ["rosemary/graphs/algorithms/cliques.py:197-234", "rosemary/graphs/algorithms/cliques.py:583-618"]}
{"id": "C133", "title": "The default distance matrix is symmetric and gives shortest round trips in the plane", "statement": "euclidean_distance_matrix(points) is a square matrix with inf on the diagonal; the entries [i][j] and [j][i] are the same value, whatever the rounding. In exact arithmetic the entries are the Euclidean distances, so depth_first(points) and branch_and_bound(points) with two or more points return a round trip through all points that is as short as possible in the Euclidean plane, together with its length.", "quantifier": "all lists of points, any function for the rounded distance; all lists of at least two points of the plane", "why_tests_cant": "The optimum is over (n-1)! tours for every list of points; tests try a few point sets.", "anchors": ["rosemary/combinatorics/optimization/tsp.py:5-19", "rosemary/combinatorics/optimization/tsp.py:29-150"]}
{"id": "C134", "title": "PellEquation accepts exactly the positive non-squares", "statement": "PellEquation(D, N) raises ValueError if D <= 0 or D is a perfect square, and otherwise keeps D and N, for every integer D however large (the test for squares does not depend on the inexact integer_sqrt).", "quantifier": "all integers D, N", "why_tests_cant": "is_square uses residue tables and integer_sqrt, which is wrong for some large numbers; that this never matters is a statement about all D.", "anchors": ["rosemary/number_theory/diophantine_equations/pell.py:7-12"]}
{"id": "C135", "title": "fermat returns the divisor nearest the square root", "statement": "For odd n >= 5, fermat(n) returns the largest divisor of n below sqrt(n) if there is one greater than 1, and n otherwise; n is returned only for a prime n (docstring: 'If n == d, then n is proven prime').", "quantifier": "all odd n >= 5 (with integer_sqrt(n) exact), all even n, and n = 3", "why_tests_cant": "the claim is about every n; tests factor a few products of two different primes", "anchors": ["rosemary/number_theory/factorization/algorithms.py:98-146"]}
{"id": "C136", "title": "lehman finds a factor of every composite number", "statement": "For n > 1, lehman(n) returns n only if n is prime, and otherwise a nontrivial divisor of n (docstring: 'If d == n, then n is proven prime').", "quantifier": "all n >= 2", "why_tests_cant": "Lehman's theorem bounds the search for every n; the numbers that the program misses are rare (the first one above 6 is 71441), so tests do not meet them", "anchors": ["rosemary/number_theory/factorization/algorithms.py:149-215"]}
{"id": "C137", "title": "Pollard's rho methods terminate", "statement": "pollard_rho(n), with or without a bound on the iterations, and pollard_rho_brent(n) return for every outcome of the random number generator, and the result is a divisor of n greater than 1; for n <= 3 they raise ValueError.", "quantifier": "all n, all numbers drawn by randint, all iteration bounds", "why_tests_cant": "the loops are unbounded and random; a test sees one run", "anchors": ["rosemary/number_theory/factorization/algorithms.py:285-433"]}
{"id": "C138", "title": "pollard_p_minus_1 succeeds on smooth p - 1", "statement": "If n has a prime factor p other than 13 such that every prime power dividing p - 1 is at most limit, then pollard_p_minus_1(n, limit) returns a divisor of n greater than 1.", "quantifier": "all n >= 1, all limits, all such primes p", "why_tests_cant": "the success criterion is a statement about all prime factors; tests check one number", "anchors": ["rosemary/number_theory/factorization/algorithms.py:218-282"]}
{"id": "C139", "title": "The arithmetic functions called with an integer alone are exact if at most one prime factor exceeds 999983", "statement": "For every integer n >= 1 with at most one prime factor above 999983 (counted with multiplicity; in particular for 1 <= n < 999984**2) and no factorization passed, euler_phi(n), moebius(n), divisor tau, sigma_k and is_squarefree return the value of the mathematical function; carmichael_lambda(n) is the least exponent killing every unit; divisors and prime_divisors of any nonzero n of that kind are exactly the (prime) divisors, strictly increasing; primitive_root(n), if also phi(n) is of that kind, is the least generator of the units or a ValueError if there is none; every terminating sqrts_mod_n(a, n) is exactly the set of roots. Non-positive n are rejected with ValueError. Above that range the composition with the probabilistic-table primality test can be wrong.", "quantifier": "all n with at most one prime factor above 999983, all exponents k, all random choices; error cases for all n <= 0", "why_tests_cant": "The end-to-end value composes trial division, primality testing and splitting; tests only try individual integers", "anchors": ["rosemary/number_theory/arithmetic_functions/functions.py", "rosemary/number_theory/factorization/factorization.py", "rosemary/number_theory/primitive_roots.py"]}
{"id": "C140", "title": "Power detection in factor and the unitary divisors", "statement": "factor(b**k, skip_power_detection=False) returns the correct signed factorization for every b >= 1 with at most one prime factor above 999983 and every k >= 1, however large the power; a negative n raises ValueError with that flag although it is accepted without it. unitary_divisors(n), n >= 2, is the strictly increasing list of the divisors d with gcd(d, n/d) = 1; unitary_divisors(1) lists 1 twice.", "quantifier": "all b, k, n (n below 999984**2 when unitary_divisors has to factor n itself)", "why_tests_cant": "Unbounded exponents and arbitrary numbers of prime factors", "anchors": ["rosemary/number_theory/factorization/factorization.py:19", "rosemary/number_theory/factorization/factorization.py:328"]}
{"id": "C141", "title": "Floating point roots do not spoil the results", "statement": "The square, cube and two-third roots that the library takes in floating point have the right integer parts, whatever the rounding mode: int(n**0.5) up to 2**48, int((x+0.5)**(1/3)) up to 2**43, the pentagonal index of partition_list up to 2**40, the bound of the Pell solver up to 2**48. Hence, with the float expressions of the code, moebius_list, tau_list, sigma_list, factored_range and the summatory functions are exact for n <= 2**48, meissel for n <= 2**43, partition_list and partition_number for 1 <= n <= 2**40, prime_range on intervals where it is right in exact arithmetic up to 2**48, and lmo_bit(x) for 8 <= x <= 2**21.", "quantifier": "all arguments up to the bounds, all faithful roundings (in particular all IEEE rounding modes)", "why_tests_cant": "Off by one errors of float roots occur at isolated arguments just below powers; sampling does not find them", "anchors": ["rosemary/number_theory/arithmetic_functions/sieves.py:91", "rosemary/number_theory/arithmetic_functions/sums.py:51", "rosemary/number_theory/primes/prime_counting.py:82-83", "rosemary/number_theory/primes/prime_counting.py:303-309", "rosemary/combinatorics/enumeration/enumeration.py:172"]}
{"id": "C142", "title": "Matrices do not share their rows", "statement": "A matrix obtained from another one (by arithmetic, delete_row, delete_col, or by constructing it from a list of rows) is independent of it: assigning to its entries or computing its determinant leaves all other matrices as they are, and they can change without affecting it.", "quantifier": "all integer matrices, any store of row objects, any later change", "why_tests_cant": "Sharing is invisible in the value returned; a test has to change one object and look at all others", "anchors": ["rosemary/algebra/matrices/matrices.py:33-43", "rosemary/algebra/matrices/matrices.py:88-340"]}
{"id": "C143", "title": "Leftist heaps are independent objects", "statement": "In a program that uses any number of LeftistHeap objects (constructor, insert, find_min, delete_min, merge, len, iteration), every heap behaves as a separate priority queue: the in-place changes of the nodes of one heap never show in another one, and every call ends.", "quantifier": "for every program (sequence of calls on any number of heaps, all values)", "why_tests_cant": "The nodes are shared mutable objects; whether two heaps interfere depends on the whole history of calls, and a test only follows one history. The interference after merge needs a use of the argument of an earlier merge.", "anchors": ["rosemary/data_structures/heaps.py:9-211"]}
{"id": "C144", "title": "Polynomials and matrices with rational entries", "statement": "PolyQQ and MatrixQQ compute with fractions as PolyZZ and MatrixZZ do with integers: sums, differences, negatives, products, scalar multiples and evaluation agree with the polynomial or matrix over the rational numbers; quo_rem returns quotient and remainder of the division over the rational numbers; powers modulo a polynomial are right; determinant returns the determinant.", "quantifier": "all lists of rational coefficients, all rational matrices of every size", "why_tests_cant": "The classes share the code written for integers, where // and % are exact in the intended cases; with fractions // still rounds down, and whether that shows depends on the arithmetic of the intermediate values, not on any finite list of examples", "anchors": ["rosemary/algebra/polynomials/polynomials.py:439-440", "rosemary/algebra/polynomials/polynomials.py:201-211", "rosemary/algebra/polynomials/polynomials.py:338-372", "rosemary/algebra/polynomials/algorithms.py:1-213", "rosemary/algebra/matrices/matrices.py:285-351"]}
{"id": "C145", "title": "Printed forms mean what they show", "statement": "repr of a polynomial with integer coefficients is an expression in its variable whose value at every x is the value of the polynomial, so polynomials that print alike are equal; repr of an integer matrix shows its entries, one row per line, in lines of equal length; repr of QuadraticIrrational(d, p, q) shows (p + sqrt(d))/q.", "quantifier": "all integer polynomials, all variable names that start with a letter and contain no blank, * or ^, all integer matrices with at least one row, all d, p, q", "why_tests_cant": "A test compares the text of chosen objects; that no two different polynomials or matrices ever print alike, and that signs, suppressed coefficients, exponents and padding are always readable, concerns all of them", "anchors": ["rosemary/algebra/polynomials/polynomials.py:66-102", "rosemary/algebra/matrices/matrices.py:45-74", "rosemary/number_theory/continued_fractions.py:23-37"]}
{"id": "C146", "title": "Modular arithmetic called with numbers alone", "statement": "Called without the optional arguments, is_primitive_root(a, n), multiplicative_order(a, n), quadratic_congruence([a, b, c], n), fibonacci_primitive_roots(p) and necklaces(n, k) factor what they need themselves. is_primitive_root is True exactly for the generators of the units modulo n (ValueError for n <= 1); multiplicative_order is the least positive exponent (ValueError for n <= 0 and for a not coprime to n); quadratic_congruence returns the increasing list of all roots in [0, n); fibonacci_primitive_roots the increasing list of the primitive roots x with x**2 = x + 1; necklaces the number of words of length n over k letters up to rotation (ValueError for n = 0).", "quantifier": "all arguments, all random choices", "why_tests_cant": "The results depend on factorizations of n, phi(n), p - 1 or a multiple 4*a*n computed on the way, with a primality test that can be wrong; a test sees small moduli only and cannot show for which the composition is exact", "anchors": ["rosemary/number_theory/zn_arithmetic.py:25-97", "rosemary/number_theory/zn_arithmetic.py:186-228", "rosemary/number_theory/zn_arithmetic.py:686-727", "rosemary/number_theory/zn_arithmetic.py:784-860", "rosemary/combinatorics/enumeration/enumeration.py:360-405"]}
{"id": "C147", "title": "factor returns with probability one, though not for all random choices", "statement": "Factoring goes through pollard_rho_brent, whose two numbers c = randint(1, n - 3) and y = randint(0, n - 1) decide what is found. For every odd composite n some draw is lucky: with c the least prime factor of n and y = 0 the call returns a proper divisor. For every n >= 7 some draw is unlucky: with c = n - 6 and y = 3 the call returns n. Therefore factor(n) returns with probability one for every n != 0 if the numbers drawn are independent and uniform; but if all prime factors of n exceed the table of primes and n is not taken for a prime, there are numbers randint may return with which factor(n) never returns.", "quantifier": "for all n, all sequences of random numbers up to a set of measure zero", "why_tests_cant": "A test runs finitely often with the numbers it happens to draw; that the exceptional sequences exist, and that together they have measure zero, is a statement about all infinite sequences of draws.", "anchors": ["rosemary/number_theory/factorization/algorithms.py:348-443", "rosemary/number_theory/factorization/factorization.py:factor"]}
{"id": "C148", "title": "The Solovay-Strassen test errs with probability less than one half", "statement": "For odd composite n, solovay_strassen(n, a) returns False for at least half of all a coprime to n, and solovay_strassen(n), which draws a = randint(2, n - 2), returns True with probability less than 1/2; k independent calls all return True with probability at most 1/2^k. For a prime n >= 5 every call returns True, and for n <= 3 there is no base to draw and ValueError is raised.", "quantifier": "for all odd composite n > 1, all k", "why_tests_cant": "The docstring's claim is about every composite n at once; tests can count liars of small n only, and rare numbers (Carmichael numbers) are where a weaker test would fail.", "anchors": ["rosemary/number_theory/primes/primality.py:17-69"]}
{"id": "C149", "title": "The Miller-Rabin test errs with probability less than one quarter", "statement": "For odd composite n, miller_rabin(n, a) returns True for at most a quarter of the a from 1 to n - 1 (theorem of Rabin and Monier), and miller_rabin(n), which draws a = randint(2, n - 2), returns True with probability less than 1/4; k independent calls all return True with probability at most 1/4^k. For a prime n >= 5 every call returns True, and for n <= 3 there is no base to draw and ValueError is raised.", "quantifier": "for all odd composite n > 1, all k", "why_tests_cant": "The bound of one quarter for every composite number is a theorem of group theory, it cannot be observed; a wrong loop bound or a missing comparison changes the number of liars for some n only.", "anchors": ["rosemary/number_theory/primes/primality.py:72-110"]}
{"id": "C150", "title": "random_prime returns every prime of the interval with the same probability", "statement": "If [a, b] contains a prime, random_prime(a, b) returns with probability one, and each prime of the interval is returned with probability 1/m, where m is the number of primes in it. If there is none and a <= b, the call never returns, whatever is drawn; if b < a ValueError is raised.", "quantifier": "for all a, b, all infinite sequences of draws", "why_tests_cant": "The distribution of a result cannot be tested, only estimated, and non-termination cannot be observed.", "anchors": ["rosemary/number_theory/primes/primality.py:272-279"]}
{"id": "C151", "title": "Square roots modulo n are found with probability one, and quickly", "statement": "Each d drawn in sqrts_mod_p is a quadratic nonresidue with probability ((p - 1)/2)/(p - 2), which is more than 1/2, so more than k draws are made with probability at most 1/2^k. Hence sqrts_mod_p, sqrts_mod_n, quadratic_congruence, fibonacci_primitive_roots and the generator of solutions of Pell's equation return with probability one, with exactly the right result. They do not return for all random choices: drawing 4 for ever, sqrts_mod_p(a, p) is endless for p = 1 (mod 8) and a square a.", "quantifier": "for all primes p, all a, n, all infinite sequences of draws up to a set of measure zero", "why_tests_cant": "The comment in the code says the nonresidue is expected to be found very quickly; that is a statement about the distribution of infinite sequences, for every prime.", "anchors": ["rosemary/number_theory/zn_arithmetic.py:314-335", "rosemary/number_theory/zn_arithmetic.py:452-502"]}
{"id": "C152", "title": "In random_graph all pairs of vertices are adjacent independently, with probability d", "statement": "random_graph(n, d) has the vertices 0, ..., n - 1. Each pair of them is adjacent with probability precisely d, and different pairs are independent: a given graph with m edges is returned with probability d^m (1 - d)^(n(n-1)/2 - m).", "quantifier": "for all n, all d from 0 to 1, all pairs, all graphs", "why_tests_cant": "The docstring speaks of the precise probability of an event; samples only estimate it, and the deviation that the comparison r <= d causes is far below what sampling could show.", "anchors": ["rosemary/graphs/graphs.py:1073-1106"]}
{"id": "C153", "title": "The greedy independent set has performance ratio (d + 2) / 3", "statement": "In a graph without loops in which every vertex has at most d >= 1 neighbors, no independent set is more than (d + 2) / 3 times as large as the one returned by independent_sets.greedy(graph); its size is at least the sum of 1 / (degree + 1) over all vertices. Both hold whichever vertices of least degree random.choice selects.", "quantifier": "all simple graphs, all d >= 1, all independent sets, all set iteration orders and all choices of random.choice", "why_tests_cant": "The ratio compares with all independent sets of all graphs with the given degree bound and must hold for every sequence of random choices.", "anchors": ["rosemary/graphs/algorithms/independent_sets.py:68-119"]}
{"id": "C154", "title": "tomita takes O(3^(n/3)) rounds, which is optimal", "statement": "For a graph with n vertices the loop of tomita(graph) runs at most 2 * 3^(n/3) times and at most 3^(n/3) cliques are given; a graph without loops has no more maximal cliques. For every k there is a graph with 3k vertices for which 3^k cliques are given.", "quantifier": "all graphs, all set iteration orders, all k", "why_tests_cant": "The worst case over all graphs with n vertices cannot be found by running examples.", "anchors": ["rosemary/graphs/algorithms/cliques.py:138-194"]}
{"id": "C155", "title": "Leftist heap operations take logarithmic time, the constructor linear time", "statement": "For heaps made by any history of calls, insert, delete_min and merge call _leftist_heap_merge at most log2(n + 1), max(1, 2 log2(n)) and max(1, log2(m + 1) + log2(n + 1) - 1) times, and LeftistHeap(values) at most 5 (n - 1) times. In particular the recursion depth is logarithmic.", "quantifier": "all histories of constructor, insert, delete_min and merge, all values", "why_tests_cant": "The bound is a worst case over all sequences of operations; a degenerate shape may need a special history.", "anchors": ["rosemary/data_structures/heaps.py:34-71", "rosemary/data_structures/heaps.py:95-211"]}
{"id": "C156", "title": "gcd and ext_gcd take at most five rounds per decimal digit and quadratically many bit operations", "statement": "gcd(x, y) runs its loop at most 5k times if the smaller of |x| and |y| has at most k decimal digits (ext_gcd once more), consecutive Fibonacci numbers attain the number of rounds that Lame's theorem allows, the bit operations are bounded by a constant times the product of the sizes of x and y (for ext_gcd the square of the larger size), and the coefficients a, b returned by ext_gcd satisfy |a| d <= |y| and |b| d <= |x| for nonzero x and y.", "quantifier": "all pairs of integers", "why_tests_cant": "A bound on the number of rounds in terms of the size is a statement about all inputs of all sizes; timing a test shows nothing about the worst case.", "anchors": ["rosemary/number_theory/core.py:gcd", "rosemary/number_theory/core.py:ext_gcd"]}
{"id": "C157", "title": "Karatsuba multiplication takes O(n^(log_2 3)) coefficient operations", "statement": "mul_classical takes exactly m*n multiplications and as many additions of coefficients for operands with m and n coefficients. mul_karatsuba takes at most 841*3^j multiplications for operands with at most 29*2^j coefficients, hence O(n^c) multiplications and O(n^c) additions and subtractions with c = log_2 3.", "quantifier": "all pairs of coefficient lists of all lengths", "why_tests_cant": "An asymptotic bound is a statement about all lengths; measured times on samples show neither the exponent nor that unbalanced operands do not spoil it.", "anchors": ["rosemary/algebra/polynomials/algorithms.py:mul_classical", "rosemary/algebra/polynomials/algorithms.py:mul_karatsuba"]}
{"id": "C158", "title": "trial_division and discrete_log take O(sqrt(n)) steps, fermat O(n), lehman O(n^(1/3))", "statement": "trial_division(n) makes at most sqrt(n) + 2 divisions; fermat(n) at most (n + 9)/6 - sqrt(n) passes, and that many up to one for every prime n >= 5; all loops of lehman(n) together, including its trial divisions, at most 25/4 of the integer cube root of n passes; discrete_log(a, b, p) writes and looks up at most 2 sqrt(p) + 5 dictionary entries.", "quantifier": "all natural numbers n, all a, b and p", "why_tests_cant": "The bounds are claims about the worst case over infinitely many arguments; for lehman the number of candidates per multiplier varies and only the sum over all multipliers is bounded.", "anchors": ["rosemary/number_theory/factorization/algorithms.py:trial_division", "rosemary/number_theory/factorization/algorithms.py:fermat", "rosemary/number_theory/factorization/algorithms.py:lehman", "rosemary/number_theory/zn_arithmetic.py:discrete_log"]}
{"id": "C159", "title": "The disjoint set structures and Kruskal's algorithm do logarithmic work per operation", "statement": "In any sequence of finds and unions on a UnionFind object with n elements the finds together follow at most log2(n) + 1 pointers per find and log2(n) pointers per union; a single find on a NamedUnionFind object never follows more than log2(n) pointers; kruskal follows O(|E| log |V|) pointers. The rank kept by UnionFind is an upper bound on the height, so that trees stay shallow.", "quantifier": "all element lists, all sequences of the documented calls, all graphs and weights", "why_tests_cant": "Amortized and worst case bounds speak about all sequences of calls; the loss of union by rank does not change any result, only the shape of the trees.", "anchors": ["rosemary/data_structures/unionfind.py:UnionFind.find", "rosemary/data_structures/unionfind.py:UnionFind.union", "rosemary/data_structures/unionfind.py:NamedUnionFind", "rosemary/graphs/algorithms/spanning_trees.py:kruskal"]}
{"id": "C160", "title": "The graph searches do no more work than their docstrings promise", "statement": "For n = num_vertices() and m = num_edges(): breadth_first_search takes every vertex that it yields from the queue exactly once, connected_components takes exactly n elements from its queues, both look at every edge at most twice; dijkstra and prim take at most 2*m + 1 elements from the heap and look at every edge at most twice, whatever the weights are; bellman_ford takes at most n*n + 1 elements from the queue and looks at most 2*n*m times at an edge, also when it raises ValueError for a negative weight; dijkstra_buckets with integer weights between 0 and C tries at most n*C + 2*m + 1 bucket indices, visits at most 2*m + 1 bucket elements and looks at every edge at most twice.", "quantifier": "every graph built by any sequence of Graph operations, every start vertex, every weight (for dijkstra_buckets integers between 0 and C)", "why_tests_cant": "Running times on sample graphs cannot establish an asymptotic bound; stale heap and bucket entries pile up only on graphs where estimates are lowered many times.", "anchors": ["rosemary/graphs/algorithms/paths.py:15-112", "rosemary/graphs/algorithms/paths.py:202-309", "rosemary/graphs/algorithms/paths.py:415-516", "rosemary/graphs/algorithms/spanning_trees.py:16-123", "rosemary/graphs/algorithms/traversal.py:4-47", "rosemary/graphs/algorithms/connectivity.py:4-49"]}
{"id": "C161", "title": "The sieves of Eratosthenes write O(n log log n) bytes, pritchard is linear", "statement": "For every n the slice assignments of eratosthenes1(n) write at most m/3 + 2*m*log2(log2 n) bytes with m = n//2 + 1, and those of eratosthenes2(n) and luo(n) at most 2*((n + 8)//3)*log2(log2 n) bytes (logarithms rounded down), as the docstrings promise. pritchard(n) assigns to every composite number up to n exactly once and to nothing else, and its inner loop makes at most 3n/2 passes.", "quantifier": "all n, all correct prime tables", "why_tests_cant": "Tests check the primes returned. A sieve that starts at k instead of k*k, that also sieves with composite k, or a linear sieve that forgets the break, returns the same primes and only loses its complexity.", "anchors": ["rosemary/number_theory/primes/sieves.py:91-149", "rosemary/number_theory/primes/sieves.py:152-220", "rosemary/number_theory/primes/sieves.py:223-293", "rosemary/number_theory/primes/sieves.py:380-443"]}
{"id": "C162", "title": "The summatory functions take O(n^(3/4)) steps", "statement": "For every n > 0 for which int(m**0.5) is exact up to n, all loops of euler_phi_sum(n) and of moebius_sum(n), including those of the recursive calls, together make at most 2*n^(3/4) passes, and those of euler_phi_weighted_sum(n) at most 6*n^(3/4): the sublinear runtime of the docstrings.", "quantifier": "all n > 0, all correct prime tables", "why_tests_cant": "Tests check values. A memo that is not filled, or filled under the wrong key, gives the same values and a runtime that grows faster than any sample shows.", "anchors": ["rosemary/number_theory/arithmetic_functions/sums.py:8-72", "rosemary/number_theory/arithmetic_functions/sums.py:78-129", "rosemary/number_theory/arithmetic_functions/sums.py:132-189"]}
{"id": "C163", "title": "Powers, logarithms and roots take few passes, with the convergence the docstrings state", "statement": "power_mod(a, k, m) makes at most two modular multiplications per binary digit of k, and at least one once it enters its loop. integer_log(b, n) and valuation(p, n) with result r make at most 2*log2(r) + 1 passes of their two loops together. One step of integer_sqrt from x leads to a y that is not below the integer part of a = sqrt(n) and exceeds a by at most (x - a)^2/(2x), and the whole call makes at most ceil(log2(bits + 2)) + 1 passes (none for n <= 2^60). One step of integer_nth_root(n, m) with n >= 3 from x >= a = m^(1/n) leads to a y not below the integer part of a that exceeds a by at most n(n-1)/6*(x - a)^3/x^2, and the whole call makes at most 2n + ceil(log3(bits/n + 1)) + 2 passes. These are the quadratic and cubic convergence of the docstrings, up to the rounding down to an integer.", "quantifier": "all integer arguments, for valuation all p >= 2", "why_tests_cant": "Tests check the results. A slip in the iteration, as num and den of Halley's method built with n in place of n - 1, a doubling search that advances by one, or a start value that is far off still ends at the right integer and only takes many more passes.", "anchors": ["rosemary/number_theory/core.py:188-241", "rosemary/number_theory/core.py:336-410", "rosemary/number_theory/core.py:413-482", "rosemary/number_theory/core.py:485-541", "rosemary/number_theory/core.py:771-817"]}
{"id": "C164", "title": "tomita runs in time O(3^(n/3)), set operations and output included", "statement": "On a graph with n vertices the whole work of tomita(graph), that is the passes of its loop, the elements handled by its set operations and the elements of the lists it builds and yields, is O(3^(n/3)), as the docstring says of its worst case.", "quantifier": "all graphs built by any sequence of calls, loops included; all set iteration orders", "why_tests_cant": "The bound is about the worst case over all graphs and about growth with n; a timing run shows neither.", "anchors": ["rosemary/graphs/algorithms/cliques.py:138-194"]}
{"id": "C165", "title": "minimum_cost_paths_heuristic runs in time O(t^2 |E| log |V|)", "statement": "With t terminals in a connected graph with positive weights, minimum_cost_paths_heuristic(graph, terminals) makes O(t^2 |E| log |V|) comparisons in its search for the nearest terminal, as its docstring promises for the whole running time.", "quantifier": "all connected graphs with positive weights, all lists of at least two different terminals, all set iteration orders", "why_tests_cant": "It is a statement about growth over all graphs; a measurement on examples shows neither that the bound holds nor that it fails. (Finding: with all vertices of a star as terminals the number of comparisons is n^2(n^2-1)/6, which no constant times t^2 |E| log |V| bounds.)", "anchors": ["rosemary/graphs/algorithms/steiner_trees.py:116-232"]}
{"id": "C166", "title": "power_jcp runs in time O(L^2 k) and constant memory", "statement": "For a polynomial given by n coefficients, not all zero, power_jcp(A, k) makes at most (n-1)^2 k passes of its inner loop (precisely L^2 k - L(L-1)/2 for k >= 1 and degree L with a constant term). Its memory is O(L), independent of k, as documented.", "quantifier": "all nonzero coefficient lists, all k >= 0; for the memory every constant", "why_tests_cant": "Running times of examples cannot show an asymptotic bound. (Finding: the memory claim is false for every constant; the list P has L k + 1 entries and the result (n-1)k + 1.)", "anchors": ["rosemary/algebra/polynomials/algorithms.py:105-147"]}
{"id": "C167", "title": "floyd_warshall uses n^3 + n comparisons and n^2 entries", "statement": "On a graph with n vertices floyd_warshall makes at most n^3 + n comparisons, precisely that many whenever it returns, and the dictionaries it returns have precisely the n^2 ordered pairs of vertices as keys.", "quantifier": "all graphs built through the API, all weights", "why_tests_cant": "Timing of examples does not bound the comparisons for all graphs.", "anchors": ["rosemary/graphs/algorithms/paths.py:630-733"]}
{"id": "C168", "title": "chartres takes O(n log n) steps and keeps its heap small", "statement": "chartres(n) makes O(n log log n) exchanges on its heap and at most n/3 + 7 passes of its other loops, within the O(n log n) steps of its docstring; its heap never has more entries than there are primes <= sqrt(n), as the comment in the code says.", "quantifier": "all n >= 0", "why_tests_cant": "Growth over all n; and the size of the heap is not observable from the result. (Finding: for 5 <= n <= 8 the heap has two entries although only 2 is a prime <= sqrt(n); the bound holds from n = 9 on.)", "anchors": ["rosemary/number_theory/primes/sieves.py:296-377"]}
{"id": "C169", "title": "The paths yielded by dijkstra_iterator cannot be spoiled by their receiver", "statement": "dijkstra_iterator yields tuples (vertex, distance, path). A caller may change the lists it receives, before or after it asks for the next tuple, without effect on what is yielded later: the vertices are those that can be reached, each once and in nondecreasing order of distance, the distances are right, and each path is a path from s to the vertex.", "quantifier": "for every graph built by any sequence of Graph operations with nonnegative weights, every start vertex, and every behaviour of the caller, i.e. every contents the yielded list may have when the generator is resumed", "why_tests_cant": "A test consumes the generator with one caller, which does not change the lists; the property is about all callers and about aliasing between the yielded list and the state of the generator.", "anchors": ["rosemary/graphs/algorithms/paths.py:115-199"]}
{"id": "C170", "title": "Recursive functions stay within Python's recursion limit", "statement": "The recursive functions of the library can be called with arguments of ordinary size without RecursionError: the depth of the recursion grows only with the logarithm of the size, for euler_phi_sum, euler_phi_weighted_sum, moebius_sum, legendre and prime_sum2 (at most 1 + log2(n) + 1 nested calls), mul_karatsuba, the merging of leftist heaps, and the search functions knapsack.depth_first and tsp.depth_first.", "quantifier": "for all arguments and every limit on the number of nested calls", "why_tests_cant": "RecursionError appears only for large arguments, where a test would take too long or was not written; that it never appears for any argument with fewer than a given number of digits cannot be tested.", "anchors": ["rosemary/number_theory/arithmetic_functions/sums.py:59-70", "rosemary/number_theory/arithmetic_functions/sums.py:117-127", "rosemary/number_theory/arithmetic_functions/sums.py:178-187", "rosemary/number_theory/primes/prime_counting.py:46-61", "rosemary/number_theory/primes/prime_counting.py:377-394", "rosemary/algebra/polynomials/algorithms.py:42-102", "rosemary/data_structures/heaps.py:34-71", "rosemary/combinatorics/optimization/knapsack.py:50-59", "rosemary/combinatorics/optimization/tsp.py:36-51"]}
{"id": "C171", "title": "Expressions of polynomial objects mean what they say", "statement": "Every expression built with +, -, *, **, power_binary, unary minus and substitution f(g) from Polynomial, PolyZZ and PolyQQ objects and integers evaluates to the element of Z[X] it denotes; the result has the class and the variable of its leftmost polynomial, its degree, lead_coeff and items are those of the denoted polynomial, and == decides equality; quotients and remainders keep the class as well; every object made by any method has no superfluous leading zeros.", "quantifier": "all expressions of any size over objects of the three classes and integers", "why_tests_cant": "The class and the normal form must survive arbitrary compositions; tests call single methods on plain Polynomial objects.", "anchors": ["rosemary/algebra/polynomials/polynomials.py:104-294", "rosemary/algebra/polynomials/polynomials.py:296-372", "rosemary/algebra/polynomials/polynomials.py:409-440"]}
{"id": "C172", "title": "Results that depend on the graph, not on names or iteration order", "statement": "If a second Graph is the first one with its vertices renamed by a bijection, however each was built and whatever order Python iterates over the sets of each, then num_vertices, num_edges, the degree of corresponding vertices, maximum_degree, minimum_degree, is_connected, the clique number from pardalos, the maximal cliques of tomita (as renamed sets), number_of_hamiltonian_paths, the number of colors of branch_and_bound, the distances of dijkstra, and the total weights of prim and kruskal are the same. The number of colors of dsatur should be the same too.", "quantifier": "for all graphs built by any two sequences of calls, all bijections between the vertex types, all iteration orders of sets, all weights (nonnegative for dijkstra)", "why_tests_cant": "the order of a set of strings changes from run to run with hash randomisation, and a test fixes one naming and one order", "anchors": ["rosemary/graphs/graphs.py:45-85", "rosemary/graphs/graphs.py:240-365", "rosemary/graphs/algorithms/connectivity.py:87-97", "rosemary/graphs/algorithms/coloring.py:10-99", "rosemary/graphs/algorithms/coloring.py:344-484", "rosemary/graphs/algorithms/cliques.py:138-195", "rosemary/graphs/algorithms/cliques.py:242-306", "rosemary/graphs/algorithms/paths.py:15-113", "rosemary/graphs/algorithms/spanning_trees.py:16-194", "rosemary/graphs/algorithms/hamiltonian_paths.py:85-106"]}
{"id": "C173", "title": "Shortest paths with floating point weights", "statement": "With nonnegative float weights dijkstra, dijkstra_pairing_heap and bellman_ford return the same numbers as each other and dijkstra_iterator yields them in nondecreasing order: for each vertex the least length of a walk as Python computes it from left to right, or inf exactly for the vertices that cannot be reached, with links along a walk of this computed length. The number differs from the exact distance at most by the factors (1 - 2^-52)^(n-1) and (1 + 2^-52)^(n-1), n = num_vertices, the exact length of the path that the links of dijkstra give is at most ((1 + 2^-52)/(1 - 2^-52))^(n-1) times the distance, and with integral floats distances below 2^53 are exact. What rounding takes away: the path need not be a shortest one, the distances need not be symmetric, and bellman_ford may miss a negative cycle.", "quantifier": "for all graphs built by calls with float weights, all start vertices, every monotone rounding to 53 bits (overflow to inf excluded)", "why_tests_cant": "rounding errors depend on the weights and on the length of the paths; tests use integers or compare with a tolerance", "anchors": ["rosemary/graphs/algorithms/paths.py:15-112", "rosemary/graphs/algorithms/paths.py:115-199", "rosemary/graphs/algorithms/paths.py:312-412", "rosemary/graphs/algorithms/paths.py:415-516"]}
{"id": "C174", "title": "Spanning trees depend on the order of the weights only; floating point weights", "statement": "prim, kruskal and cheriton_tarjan return the same tree (or raise the same exception) when all weights of a graph are replaced by others in the same order. So with floats as weights the returned edges are a minimum spanning tree for the exact sums of the weights, whatever the rounding, also with negative weights. For nonnegative floats and n vertices the returned total is between (1 - 2^-52)^(n-2) and (1 + 2^-52)^(n-2) times the exact weight of the tree, and it is exact for integral weights with a total up to 2^53. The total itself is not determined by the graph: for the path 3-0-1-2 with the weights 1.0, 2**-53, 2**-53, prim returns the total 1.0 from the root 3 and 1 + 2**-52 from the root 2, so that prim and kruskal disagree.", "quantifier": "all graphs built by any sequence of calls, all weights in any ordered type with any addition; all strictly monotone changes of the weights; all floats without overflow, every monotone rounding that is exact on floats; all roots and all random choices", "why_tests_cant": "tests use integer weights; the order of the additions and the rounding matter only for particular floats", "anchors": ["rosemary/graphs/algorithms/spanning_trees.py:16-286", "rosemary/data_structures/heaps.py:9-211"]}
{"id": "C175", "title": "All shortest path functions report one metric", "statement": "For nonnegative exact weights dijkstra, dijkstra_pairing_heap, bellman_ford, dijkstra_iterator, floyd_warshall and (between two different vertices) dijkstra_bidirectional report the same distance for every pair of vertices. This distance is zero from a vertex to itself, never negative, symmetric, satisfies the triangle inequality, is at most the weight of an edge, and is zero only between equal vertices if edges between different vertices have positive weight. Adding an edge (a, b, w) not heavier than the one it replaces changes the distance from s to v to exactly min(d(s,v), d(s,a)+w+d(b,v), d(s,b)+w+d(a,v)). Measuring the weights in another unit changes the distances by the same factor.", "quantifier": "all histories of calls that build a graph with nonnegative weights, all vertices, all new edges, all additive strictly increasing changes of the weights", "why_tests_cant": "Six implementations with different data structures must agree on every pair of vertices of every graph, and the laws relate the results of several calls on graphs of unbounded size.", "anchors": ["rosemary/graphs/algorithms/paths.py:15-199", "rosemary/graphs/algorithms/paths.py:312-733"]}
{"id": "C176", "title": "What all minimum spanning tree functions have in common", "statement": "On a connected graph prim (from every root), kruskal, cheriton_tarjan (with any random choices) and the first tree of gabow give the same total whenever they return. If different edges have different weights they even give the same list of edges. In every returned tree the way between two vertices has the least possible maximal edge weight; an edge lighter than all others that leave a set of vertices is in it; an edge whose ends are connected by lighter edges is not. Adding an edge (a, b, w) lowers the total exactly if a and b were not connected by edges of weight at most w.", "quantifier": "all histories of calls that build a connected graph with exact weights (an ordered commutative group), all roots, choices, set orders and sets of vertices", "why_tests_cant": "The four functions use different data structures and orders; agreement and the optimality of all paths, cuts and cycles quantifies over all graphs, subsets and pairs of results.", "anchors": ["rosemary/graphs/algorithms/spanning_trees.py:16-395"]}
{"id": "C177", "title": "floyd_warshall with floating point weights", "statement": "With nonnegative float weights floyd_warshall returns, and for every pair of vertices the value is inf without a link exactly if there is no path; else it lies between (1 - 2^-52)^n and (1 + 2^-52)^n times the exact distance, n = num_vertices, and following the links leads back to the source without running in a circle, along a path whose exact length is bounded by the returned value times 1 + (n-1)(((1 + 2^-52)/(1 - 2^-52))^n - 1). With at most 1000 vertices the values are right up to a relative error of 10^-12 and the paths up to 10^-9. With integral floats distances below 2^53 and their paths are exact. The values are symmetric, and ValueError is raised exactly if an edge between different vertices is negative. The values may differ from those of dijkstra.", "quantifier": "for all graphs built by calls with float weights, all pairs of vertices, every monotone rounding to 53 bits (overflow to inf excluded)", "why_tests_cant": "The function adds rounded sums to rounded sums, so the error depends on all weights and on the order of the vertices; that links cannot form a cycle in spite of rounding is a statement about all runs.", "anchors": ["rosemary/graphs/algorithms/paths.py:630-733"]}
{"id": "C178", "title": "Colorings, cliques and independent sets bound each other", "statement": "On every nonempty graph the size of the clique found by pardalos is at most the number of colors of branch_and_bound, which is at most the numbers of colors of dsatur and greedy_sequential, and these are at most the largest degree plus one; the number of vertices is at most the number of colors of branch_and_bound times the size of the independent set of independent_sets.branch_and_bound, and the sum of the two is at most the number of vertices plus one. Under the conditions of C108 exact_coloring reports the same number as branch_and_bound. For every graph some order of the vertices makes greedy_sequential optimal; with the default order it uses at most t colors if at most t vertices have t or more neighbors. On every bipartite graph dsatur is optimal (two colors if there is an edge, else one), while greedy_sequential may use three colors on a tree.", "quantifier": "for all nonempty graphs built by any calls, all orders in which Python may iterate over sets", "why_tests_cant": "The inequalities relate the results of five different searches on every graph; optimality of dsatur on bipartite graphs is a theorem about all bipartite graphs.", "anchors": ["rosemary/graphs/algorithms/coloring.py:10-200", "rosemary/graphs/algorithms/coloring.py:344-484", "rosemary/graphs/algorithms/coloring.py:635-699", "rosemary/graphs/algorithms/cliques.py:242-306", "rosemary/graphs/algorithms/independent_sets.py:10-66"]}
{"id": "C179", "title": "The arithmetic functions fit together", "statement": "Called with integers alone, the functions satisfy the classical identities: sum(euler_phi(d) for d in divisors(n)) is n; sum(moebius_mu(d) for d in divisors(n)) is 1 for n = 1 and 0 otherwise; divisor_tau(n) is len(divisors(n)) and divisor_sigma(n, k) the sum of the k-th powers; sum(moebius_mu(d) * divisor_sigma(n // d, k)) is n**k; the functions are multiplicative on coprime arguments; multiplicative_order(a, n) divides carmichael_lambda(n), which divides euler_phi(n) and is the order of some a; is_primitive_root(a, n) says whether the order is euler_phi(n); primitive_root(n) returns exactly if carmichael_lambda(n) == euler_phi(n), and otherwise raises ValueError; the number of primitive roots in range(n) is euler_phi(euler_phi(n)) or 0; power_mod(a, euler_phi(n), n) == 1 and inverse_mod(a, n) == power_mod(a, carmichael_lambda(n) - 1, n) for coprime a; k is in euler_phi_inverse(n) exactly if euler_phi(k) == n.", "quantifier": "for all n with at most one prime factor above 999983 (also in the numbers that are factored on the way), all a, all k", "why_tests_cant": "The identities relate separately written functions for every n; a test fixes n.", "anchors": ["rosemary/number_theory/arithmetic_functions/functions.py:70-450", "rosemary/number_theory/arithmetic_functions/inverse_functions.py:13-110", "rosemary/number_theory/factorization/factorization.py:159-204", "rosemary/number_theory/zn_arithmetic.py:25-183", "rosemary/number_theory/zn_arithmetic.py:686-727", "rosemary/number_theory/core.py:188-300"]}
{"id": "C180", "title": "All functions about primes speak of the same primes, tables and sums of the same values", "statement": "For every integer n the functions primes, eratosthenes1, eratosthenes2, luo, pritchard and chartres return one increasing list L; p is in L exactly if p <= n and is_prime(p); legendre, lmo and meissel return len(L), prime_sum2 and prime_sum return sum(L), prime_count(n)[n] is len(L), pi_table(n) returns L with the number of entries up to each k; starting with next_prime(1) and repeating next_prime lists L, and next_prime of the last entry exceeds n. For 1 <= k <= n the entries k of euler_phi_list(n), moebius_list(n), tau_list(n), sigma_list(n, e) are euler_phi(k), moebius_mu(k), divisor_tau(k), divisor_sigma(k, e), and euler_phi_sum(n), moebius_sum(n), sigma_sum(n) are the sums of the lists.", "quantifier": "for all integers n (meissel: up to 2^43 with floats, see C141; prime_count and prime_sum: where integer_sqrt is exact; tables: 1 <= n <= 2^39), every faithful rounding of floats, all random choices in factor", "why_tests_cant": "More than twenty independently written functions are compared for all n.", "anchors": ["rosemary/number_theory/primes/sieves.py:16-450", "rosemary/number_theory/primes/primality.py:186-247", "rosemary/number_theory/primes/prime_counting.py:15-148", "rosemary/number_theory/primes/prime_counting.py:239-300", "rosemary/number_theory/primes/prime_counting.py:360-520", "rosemary/number_theory/arithmetic_functions/sieves.py:10-236", "rosemary/number_theory/arithmetic_functions/sums.py"]}
{"id": "C181", "title": "distance_network_heuristic: time spent on removing leaves", "statement": "The docstring says that distance_network_heuristic runs in time O(t |E| log |V|) for t terminals. While it removes the leaves that are not terminals it looks at no more than |V| (|V| + 1) / 2 vertices, on every graph with nonnegative weights in which the terminals are connected. This part alone does not keep the bound of the docstring: for every constant c there is a connected graph with positive weights and three terminals on which more than c t |E| log |V| vertices are looked at, because every call of leaves() goes through all remaining vertices and may find a single leaf.", "quantifier": "for all histories of a graph, all lists of at least two different connected terminals, and all orders of iteration of sets; for all constants c", "why_tests_cant": "A test can time a few graphs, but neither proves a bound for all of them nor refutes a bound with an unknown constant; the bad graphs need weights for which the improvement step leaves a long dead end.", "anchors": ["rosemary/graphs/algorithms/steiner_trees.py:51-52", "rosemary/graphs/algorithms/steiner_trees.py:235-278", "rosemary/graphs/algorithms/steiner_trees.py:281-328", "rosemary/graphs/graphs.py:168-173"]}
{"id": "C182", "title": "cheriton_tarjan runs in the documented time", "statement": "The docstring promises O(|E| log log |V|) time. Every round of cheriton_tarjan copies the keys of the dict of the heaps (list(PQ.keys())), so the number of copied keys has to respect the bound: there is a constant c such that no more than c |E| log log |V| keys are copied on a connected graph.", "quantifier": "all graphs built by any sequence of calls, all weights, all results of random.choice", "why_tests_cant": "A test measures a few small graphs and one sequence of random choices; the bound is a claim on the growth over all graphs and all choices.", "anchors": ["rosemary/graphs/algorithms/spanning_trees.py:224-232", "rosemary/graphs/algorithms/spanning_trees.py:251-280"]}
{"id": "C183", "title": "sqrts_mod_p keeps its numbers small", "statement": "The docstring promises an expected running time of O(log(p)**4) for the square roots modulo a prime p. So every number that sqrts_mod_p(a, p) builds has to have a number of bits that is polynomial in log(p), and the number of modular powers computed has to be of the order of log(p).", "quantifier": "all primes p, all a, all random choices", "why_tests_cant": "Tests use primes p for which p - 1 is divisible by a small power of 2 only; how large the unreduced power D**m gets depends on that power of 2, and for large ones the call never returns.", "anchors": ["rosemary/number_theory/zn_arithmetic.py:268-275", "rosemary/number_theory/zn_arithmetic.py:323-335"]}
{"id": "C184", "title": "Roots, logarithms and congruences modulo n fit together", "statement": "Two ways of asking the same question modulo n get the same answer. For an odd prime p, len(sqrts_mod_p(a, p)) == 1 + jacobi_symbol(a, p). linear_congruence(a, 1, n) == [inverse_mod(a, n)], and it is [] exactly if inverse_mod raises a ValueError. sqrts_mod_n(a, n) == quadratic_congruence([1, 0, -a], n), and for a prime p, sqrts_mod_n(a, p) == sqrts_mod_p(a, p). nth_roots_of_unity_mod_p(2, p) == sqrts_mod_p(1, p), nth_roots_of_minus1_mod_p(2, p) == sqrts_mod_p(-1, p), the roots of unity of degree 2*n are those of degree n and the roots of -1 of degree n, which have none in common for an odd p; x is among nth_roots_of_unity_mod_p(n, p) exactly if multiplicative_order(x, p) divides n. For a primitive root g of an odd prime p and b not divisible by p, k = discrete_log(g, b, p) satisfies power_mod(g, k, p) == b % p, b has a square root exactly if k is even, and multiplicative_order(b, p) == (p - 1)//gcd(p - 1, k).", "quantifier": "all moduli, all residues, all degrees, all random choices of sqrts_mod_p with which it returns, all correct factorizations", "why_tests_cant": "The functions use different algorithms (Tonelli-Shanks, Hensel lifting, Euclid, baby steps and giant steps); a table of agreeing values for small moduli tells nothing about the others.", "anchors": ["rosemary/number_theory/zn_arithmetic.py:236-341", "rosemary/number_theory/zn_arithmetic.py:452-735", "rosemary/number_theory/zn_arithmetic.py:735-900", "rosemary/number_theory/core.py:244-290", "rosemary/number_theory/core.py:702-760"]}
{"id": "C185", "title": "Generators list as many objects as the counting functions say", "statement": "For all arguments, len(list(combinations(n, t))) == binomial(n, t); n_tuples(len(M), M) yields the product of M many tuples and n_tuples(n, m) yields m**n; knuth_algorithm_l yields multinomial(n, multiplicities) arrangements, factorial(n) for different elements, and phillips yields the same list; knuth_algorithm_l_rvariations yields factorial(n)//factorial(n - r). len(list(integer_partitions(n))) == partition_number(n), naming the parts 1, ..., n changes nothing, the partitions into distinct parts and into m parts are those among all that have the property, there are as many partitions into distinct parts as into odd parts, and ps_invert(eta_series(n + 1)) == partition_list(n). bell_number(n + 1) is the sum of binomial(n, k)*bell_number(n - k), and bipartitions(m, n) == bipartitions(n, m). number_of_domino_tilings and triomino_tilings do not change if the board is turned, and domino_tilings(n) == number_of_domino_tilings(n, n).", "quantifier": "all n, t, m, all lists of radices, all lists of elements, whatever the dictionaries of the tiling counters find", "why_tests_cant": "The generators and the counting functions share no code; comparing a generator with a counter is possible for the first few n only since the lists grow exponentially.", "anchors": ["rosemary/combinatorics/generation/combinations.py:1-60", "rosemary/combinatorics/generation/tuples.py:1-51", "rosemary/combinatorics/generation/permutations.py:6-430", "rosemary/combinatorics/generation/partitions.py:1-250", "rosemary/combinatorics/enumeration/enumeration.py:11-380", "rosemary/combinatorics/optimization/exact_cover.py:223-270", "rosemary/algebra/power_series/power_series.py:15-75"]}
{"id": "C186", "title": "dijkstra_bidirectional with floating point weights", "statement": "With nonnegative float weights (any monotone rounding to 53 bits) in a graph with n vertices, dijkstra_bidirectional for different vertices s and t returns the bare inf if and only if there is no path; otherwise the length lies within the factors (1 - 2^-52)^(n+1) and (1 + 2^-52)^(n+1) of the exact distance, and the path it returns leads from s to t and its exact length is at most ((1 + 2^-52)/(1 - 2^-52))^(n+1) times the distance; for up to 999 vertices both errors are below 10^-12. Integral float weights give exact distances below 2^53 and shortest paths. What rounding takes away: the length for s, t need not be the one for t, s, nor the one dijkstra returns.", "quantifier": "all graphs built by the API with nonnegative float weights, all pairs of vertices, all monotone rounding modes", "why_tests_cant": "Rounding of both searches and of the two sums of a candidate depends on all weights of the graph; tests compare a few lengths with a tolerance.", "anchors": ["rosemary/graphs/algorithms/paths.py:524-622", "rosemary/graphs/algorithms/paths.py:115-199"]}
{"id": "C187", "title": "What one more edge or one vertex less does to the exact answers", "statement": "Adding an edge between two vertices of a graph, deleting an edge or deleting a vertex moves the number of colors of coloring.branch_and_bound, the size returned by pardalos and the size returned by independent_sets.branch_and_bound by at most one, and only in the direction expected (colors and cliques do not shrink with one more edge and do not grow with a vertex or edge less; independent sets the other way round for edges, and do not grow with a vertex less). One more edge never turns is_connected from True to False, never lowers number_of_hamiltonian_paths, and never lowers the number of spanning trees computed as the determinant of the Laplacian matrix without a row and column. None of this holds for greedy_sequential: with one more edge it may need fewer colors than before.", "quantifier": "all graphs built by the API, all edges between their vertices, all vertices, all iteration orders of sets", "why_tests_cant": "The answers before and after a change come from two unrelated searches; tests check single graphs and never compare the answers of neighbouring ones.", "anchors": ["rosemary/graphs/algorithms/coloring.py:101-190", "rosemary/graphs/algorithms/coloring.py:344-460", "rosemary/graphs/algorithms/cliques.py:242-306", "rosemary/graphs/algorithms/independent_sets.py:10-60", "rosemary/graphs/algorithms/connectivity.py:87-110", "rosemary/graphs/algorithms/hamiltonian_paths.py:85-106", "rosemary/graphs/graphs.py:909-950"]}
{"id": "C188", "title": "The functions about Pell's equation fit together", "statement": "For every positive non-square D at which integer_sqrt is right (in particular below 4503599761588224): if pell_fundamental_solution(D, -1) returns (a, b), then pell_fundamental_solution(D) returns (a^2 + D b^2, 2ab). pell_small(D, 1) yields exactly the powers of the fundamental solution. The fundamental solution for D m^2 is the least power of the one for D whose second entry is a multiple of m. For N^2 < D, farey(D, N) returns the first pair pell_small(D, N) yields and runs forever exactly if it yields none; for N = 1 or N no square (and given the right integer part of the floating point bound) the coprime pairs of pell_solution_generator(D, N, B) are the pairs up to B that pell_small(D, N) yields; for N no square pell_minimal_positive_solutions and _pell_small_minimal_positive_solutions list the same pairs. For N = 1 these two never agree: the first lists the fundamental solution, the second nothing.", "quantifier": "all non-square D > 0 at which integer_sqrt is right, all N with N^2 < D, all bounds B, all multipliers m, all random choices", "why_tests_cant": "The functions use unrelated methods (continued fractions, Farey sequences, square roots modulo D, class representatives); tests compare each with a few tabulated values.", "anchors": ["rosemary/number_theory/diophantine_equations/pell.py:92-165", "rosemary/number_theory/diophantine_equations/pell.py:167-206", "rosemary/number_theory/diophantine_equations/pell.py:208-298", "rosemary/number_theory/diophantine_equations/pell.py:300-345"]}
{"id": "C189", "title": "How the best knapsacks and the shortest tours depend on the input", "statement": "Knapsack (weights and capacity nonnegative): depth_first and dynamic_programming return the same value for every order of the items; a larger capacity never lowers it; the values of two knapsacks add up to at most that of one with the joint items and the sum of the capacities; with one more item (v, w) the value is the larger one of the old value and v plus the value for the capacity less w (Bellman's equation), or unchanged if the item does not fit; changing the units of weights or values changes the result accordingly. Tours (at least two points, finite distances): depth_first and branch_and_bound return the same length; it does not depend on the numbering of the points or on the direction of all ways; it does not grow if no distance grows; with the triangle inequality it does not grow if a point is left out. None of the last holds for farthest_insertion: its length depends on the numbering and may shrink with one more point in the plane.", "quantifier": "all lists of items with nonnegative weights, all capacities, all finite distance matrices, all renumberings", "why_tests_cant": "Each law compares two runs on different inputs that search different trees; tests look at single instances.", "anchors": ["rosemary/combinatorics/optimization/knapsack.py:15-92", "rosemary/combinatorics/optimization/tsp.py:1-150", "rosemary/combinatorics/optimization/tsp.py:152-201"]}
{"id": "C190", "title": "trial_division, fermat and lehman compared", "statement": "For n >= 4 no number returned by lehman, pollard_rho, pollard_rho_brent or cfrac is smaller than trial_division(n), whatever the random numbers, bounds and multipliers. For odd n >= 5 with n < 4503599761588224 or n > 2**60 (where integer_sqrt is known to be exact) fermat(n) == trial_division(n) exactly if n is a prime, a product of two different primes, or the third or fourth power of a prime; for even n >= 2 both return 2; for n = 3 trial_division returns 3 but fermat returns 1. For n >= 2 lehman(n) is trial_division(n), or n // trial_division(n), or n; it is trial_division(n) if the cube of that is at most n. All three cases occur.", "quantifier": "all n in the ranges named, all random numbers, bounds and multipliers", "why_tests_cant": "The functions search for different divisors by different methods; for which n they meet is a statement about the factorization of every n.", "anchors": ["rosemary/number_theory/factorization/algorithms.py:23-95", "rosemary/number_theory/factorization/algorithms.py:98-146", "rosemary/number_theory/factorization/algorithms.py:149-215", "rosemary/number_theory/factorization/algorithms.py:285-567"]}
{"id": "C191", "title": "The power series functions fit together", "statement": "For a list A with constant term 1 or -1, ps_invert(ps_invert(A)) == A; the inverse of the product of two such lists of the same length n, cut to n coefficients, is the product of the inverses cut to n coefficients; and ps_invert(ps_power(A, k)) == ps_power(ps_invert(A), k). For nonzero constant term and all j, k >= 0, ps_power(A, j + k) is ps_mult_classical(ps_power(A, j), ps_power(A, k)) cut to len(A) coefficients, ps_power(ps_power(A, j), k) == ps_power(A, j*k), and ps_power(A, k) consists of the first len(A) coefficients of power_jcp(A, k), with zeros where that list is shorter. For 1 <= m <= len(A), ps_invert(A[:m]) and ps_power(A[:m], k) are the first m entries of ps_invert(A) and ps_power(A, k).", "quantifier": "all integer lists with the constant terms named, all exponents j, k >= 0, all m", "why_tests_cant": "Each law relates the lists computed by recurrences with integer divisions on different inputs, for every length and exponent.", "anchors": ["rosemary/algebra/power_series/power_series.py:39-55", "rosemary/algebra/power_series/power_series.py:58-74", "rosemary/algebra/power_series/power_series.py:77-84", "rosemary/algebra/polynomials/algorithms.py:105-147"]}
{"id": "C192", "title": "How the number of exact covers depends on the input", "statement": "For sets without repetitions inside the target, the number of covers yielded by algorithmx does not depend on the order of the sets, on the order or repetitions in the target, or on the order in which Python iterates over sets. With one more nonempty set y at the end, it is the number without y plus the number for the elements of the target outside y when every set that meets y is replaced by an empty one (which is never chosen); so it never falls. For ExactCoverBinary(ints), number_of_solutions() is the number of solutions yielded by solutions(), and the number of covers algorithmx yields for the sets of bits of the integers.", "quantifier": "all targets, all lists of sets inside the target, all renumberings, all lists of natural numbers, all iteration orders", "why_tests_cant": "Each law compares two searches with different choices at every step, or two programs with different data structures; tests count the covers of a few fixed instances.", "anchors": ["rosemary/combinatorics/optimization/exact_cover.py"]}
{"id": "C193", "title": "LeftistHeap and PairingHeap give the same answers", "statement": "Start a LeftistHeap with a list of at least two keys and a PairingHeap with insert_values of the same keys and different values, and apply the same sequence of insert and delete_min to both, with values that are all different. Then delete_min returns the same key (None for both when empty) at every step, and no call raises or fails to end. Emptying the PairingHeap by delete_min and iterating over the LeftistHeap both give the keys in increasing order.", "quantifier": "all linearly ordered keys, equal ones included, all sequences of insert and delete_min, all values that are different", "why_tests_cant": "The heaps have different shapes after every step; equality of the answers is a statement about all histories of calls.", "anchors": ["rosemary/data_structures/heaps.py:34-191", "rosemary/data_structures/heaps.py:214-345"]}
{"id": "C194", "title": "gcd_list, lcm_list, chinese and factor_back depend on the collection, not on the order of the list", "statement": "gcd_list(L) and lcm_list(L) do not change when L is rearranged (errors included), and for lists of at least two entries they depend on the set of the entries only. For two nonempty lists the gcd of the joined list is the gcd of the two gcds, likewise for lcm_list. Multiplying every entry of a list of at least two numbers by c multiplies gcd and lcm by |c|. gcd and lcm distribute over each other, absorb each other, and gcd(x, y) lcm(x, y) = |x y|. chinese with positive moduli does not depend on the order of the congruences, errors included; with at least two congruences residues may be replaced by congruent ones, while a single residue is returned as given; for coprime positive moduli a system may be split in two, the parts solved, and the solutions combined by chinese with the products of the moduli. factor_back does not depend on the order of the pairs, sends joined factorizations to products, and multiplying all exponents by k to k-th powers.", "quantifier": "all lists of integers, all lists of congruences with positive moduli, all lists of pairs (integer, natural exponent)", "why_tests_cant": "The functions fold from the left with loop state that depends on the order; invariance concerns all permutations and all ways to group.", "anchors": ["rosemary/number_theory/core.py:6-67", "rosemary/number_theory/core.py:125-185", "rosemary/number_theory/core.py:544-595", "rosemary/number_theory/factorization/factorization.py:124-145"]}
{"id": "C195", "title": "Matrix expressions obey the laws of linear algebra, and which determinants can be relied on", "statement": "For integer matrices of one shape +, - and multiples obey the usual laws as equations between the results of the methods (associative, commutative, A - B = A + (-B), -(-A) = A, (A - B) + B = A, multiples distribute and compose). Products with a square result distribute over sums on both sides and commute with multiples; products of square matrices are associative. Brackets matter for rectangular matrices: for A of shape n x p, B of shape p x n with n != p and S square, (A * B) * S is computed but A * (B * S) raises IndexError. determinant() returns the determinant for every triangular matrix (the product of the diagonal), every matrix with strictly dominant diagonal, and every definite matrix (x M x = 0 only for x = 0) with at least two rows; for a product it returns the product of the two determinants or 0.", "quantifier": "all integer matrices of the shapes named, all sizes (at least two rows for determinants)", "why_tests_cant": "Laws over all matrices and sizes; the classes on which a faulty elimination is right are infinite and not visible from samples.", "anchors": ["rosemary/algebra/matrices/matrices.py:88-219", "rosemary/algebra/matrices/matrices.py:285-345"]}
{"id": "C196", "title": "The operations of Graph fit together", "statement": "For every graph built by any sequence of add and delete calls: complement() of complement() has the same vertices and joins u and v exactly when they are different and were adjacent, every weight being the default (so a graph without loops and with default weights comes back). induced_subgraph of an induced subgraph is the induced subgraph of the smaller set; complement and induced_subgraph commute. remove_vertices does not depend on order or repetitions and is the induced subgraph of the other vertices. Deleting an edge just added between two vertices not adjacent before restores the graph; deleting an edge and adding it with its weight changes nothing. The degrees of all vertices of a graph without loops, in any order, are accepted by is_graphic and by is_graphic_erdos_gallai.", "quantifier": "all sequences of calls, all vertex types, all iteration orders of sets, all vertex lists", "why_tests_cant": "Composition of operations over all graphs; tests compare single operations on single graphs.", "anchors": ["rosemary/graphs/graphs.py:523-780", "rosemary/graphs/graphs.py:941-1015", "rosemary/graphs/algorithms/degree_sequences.py:1-130"]}
{"id": "C197", "title": "The two Steiner tree heuristics agree with each other, with dijkstra and with prim", "statement": "For at least two distinct terminals in one component of a graph with positive weights, distance_network_heuristic and minimum_cost_paths_heuristic, called with the same set of terminals in any order and with any repetitions, return weights of which neither is more than 2 (1 - 1/t) times the other.  For two terminals both return the distance that dijkstra reports between them.  If the terminals are all vertices of a component, both return a spanning tree of the component with the weight that prim returns.  Neither weight exceeds that of any spanning tree of the complete graph on the terminals weighted by the distances from dijkstra.  The last three statements hold for distance_network_heuristic with nonnegative weights too.", "quantifier": "all graphs built with the graph API, all weights in the stated range, all terminal lists, all iteration orders of sets", "why_tests_cant": "five functions have to be compared on every graph, and the heuristics may return different trees from run to run because they iterate over sets", "anchors": ["rosemary/graphs/algorithms/steiner_trees.py:16-113", "rosemary/graphs/algorithms/steiner_trees.py:116-278", "rosemary/graphs/algorithms/steiner_trees.py:281-328"]}
{"id": "C198", "title": "Spanning trees and round trips", "statement": "On the complete graph over n >= 2 points with symmetric distances of any sign, the weight w that prim returns satisfies n * w <= (n - 1) * L for the length L of every round trip, in particular for what depth_first, branch_and_bound, farthest_insertion and two_opt return. If the distances also satisfy the triangle inequality and are 0 on the diagonal, the length that depth_first and branch_and_bound return is at most 2 * w.", "quantifier": "all numbers of points n >= 2, all symmetric distance matrices, all start vertices of prim, all round trips", "why_tests_cant": "The bounds relate two modules for every distance matrix and compare with all (n-1)! round trips and all n^(n-2) spanning trees.", "anchors": ["rosemary/graphs/algorithms/spanning_trees.py:16-123", "rosemary/combinatorics/optimization/tsp.py:29-54", "rosemary/combinatorics/optimization/tsp.py:57-149", "rosemary/combinatorics/optimization/tsp.py:152-200", "rosemary/combinatorics/optimization/tsp.py:271-307"]}
