{"id": "C01", "title": "Generic integer square root is the exact floor", "statement": "sqrtT(x) for an integral type terminates and returns the unique q >= 0 with q*q <= x < (q+1)*(q+1), for every x >= 0; isqrt(x) returns the same value no matter how inaccurate the floating-point seed is.", "quantifier": "every non-negative integer x; every possible floating-point seed", "why_tests_cant": "The Newton iteration and the correction loops must converge to the floor for every one of infinitely many x; perfect squares and their neighbours at every magnitude are the risky cases, and the seed's rounding is platform dependent.", "anchors": ["include/altruct/algorithm/math/base.h:sqrtT", "src/algorithm/math/base.cpp:isqrt"]}
{"id": "C02", "title": "Generic integer cube root is the exact floor", "statement": "cbrtT(x) for an integral type terminates and returns the unique q with q^3 <= x < (q+1)^3 for every x >= 0; icbrt corrects any seed to the same value.", "quantifier": "every non-negative integer x; every seed of icbrt", "why_tests_cant": "Newton iteration with a three-way exit test can stop one off only at isolated x, at any magnitude.", "anchors": ["include/altruct/algorithm/math/base.h:cbrtT", "src/algorithm/math/base.cpp:icbrt"]}
{"id": "C03", "title": "gcd, extended gcd and lcm", "statement": "gcd(a,b) is a greatest common divisor of a and b (it divides both and every common divisor divides it), gcd_ex returns such a g together with x, y with a*x + b*y = g, and lcm(a,b) is a least common multiple up to sign (0 when either argument is 0).", "quantifier": "all pairs of integers, of either sign, including zero", "why_tests_cant": "Infinitely many argument pairs and Euclid step counts; sign and zero combinations interact.", "anchors": ["include/altruct/algorithm/math/base.h:gcd", "include/altruct/algorithm/math/base.h:gcd_ex", "include/altruct/algorithm/math/base.h:lcm"]}
{"id": "C04", "title": "Exponentiation by squaring", "statement": "powT(x, n) equals the n-fold product of x for every element x of any monoid (associative multiplication with identity; commutativity is not needed) and every n >= 0.", "quantifier": "every monoid, every element, every exponent n >= 0", "why_tests_cant": "It is used with modulo, polynom, matrix, series, permutation-like types; no test enumerates all algebraic types and exponents.", "anchors": ["include/altruct/algorithm/math/base.h:powT"]}
{"id": "C05", "title": "Rounding integer division", "statement": "div_floor(a,b), div_ceil(a,b) return the floor and the ceiling of the exact quotient a/b for every sign combination with b != 0; div_round returns a nearest integer; multiple(a,b) returns the least multiple of a that is >= b.", "quantifier": "all pairs of integers with non-zero divisor", "why_tests_cant": "Correctness depends on the sign combination and on exact divisibility, for unboundedly many operands.", "anchors": ["include/altruct/algorithm/math/base.h:div_floor", "include/altruct/algorithm/math/base.h:div_ceil", "include/altruct/algorithm/math/base.h:div_round", "include/altruct/algorithm/math/base.h:multiple"]}
{"id": "C06", "title": "Modular addition, subtraction, negation and multiplication never overflow on unsigned words", "statement": "For unsigned w-bit words and every modulus 0 < M < 2^w, the modular add/sub/neg/mul primitives applied to residues x, y < M return exactly (x+y) mod M, (x-y) mod M, (-x) mod M and (x*y) mod M, even though intermediate sums can wrap around 2^w.", "quantifier": "all word widths w, all moduli 0 < M < 2^w, all residues x, y < M", "why_tests_cant": "2^192 combinations for 64 bits; wrap-around only happens for moduli above 2^63, a region usually untested.", "anchors": ["include/altruct/structure/math/modulo.h:modulo_add", "include/altruct/structure/math/modulo.h:modulo_sub", "include/altruct/structure/math/modulo.h:modulo_neg", "include/altruct/structure/math/modulo.h:modulo_mul"]}
{"id": "C07", "title": "Modular inverse and modular division", "statement": "modulo_inv(v, M) returns a residue r in [0,M) with v*r = 1 (mod M) whenever gcd(v,M)=1; modulo_div(x, y, M) returns a residue q with q*y = x (mod M) whenever gcd(y,M) divides x; the extended-gcd variant used on unsigned words returns the same although its cofactors wrap.", "quantifier": "every modulus M > 1 and every pair of residues satisfying the solvability condition", "why_tests_cant": "Depends on the whole Euclid trajectory (parity of the number of steps fixes the sign); no finite sample covers all trajectories.", "anchors": ["include/altruct/structure/math/modulo.h:modulo_inv", "include/altruct/structure/math/modulo.h:modulo_div", "include/altruct/structure/math/modulo.h:modulo_gcd_ex"]}
{"id": "C08", "title": "modulo<> is the ring Z/M", "statement": "Constructing modulo values from arbitrary integers and combining them with +, -, *, unary -, and powT gives the canonical representative in [0,M) of the same integer expression evaluated exactly.", "quantifier": "every M > 0, every integer expression over any operands", "why_tests_cant": "Expressions are unbounded in size; normalisation of negative operands must be right at each step.", "anchors": ["include/altruct/structure/math/modulo.h:modulo", "include/altruct/structure/math/modulo.h:modulo_normalize"]}
{"id": "C09", "title": "Chinese remainder combination", "statement": "Combining x = a1 (mod n1) and x = a2 (mod n2) yields a, lcm(n1,n2) such that the solutions of the pair of congruences are exactly x = a (mod lcm), and reports failure exactly when the pair has no solution, also for non-coprime moduli.", "quantifier": "all residues and all positive moduli, coprime or not", "why_tests_cant": "Both directions (soundness and completeness of the failure report) range over unboundedly many moduli pairs.", "anchors": ["include/altruct/algorithm/math/modulos.h:chinese_remainder"]}
{"id": "C10", "title": "Jacobi symbol", "statement": "jacobi(n, m) returns the Jacobi symbol (n/m) for every n >= 0 and odd m > 0, in particular the Legendre symbol for odd prime m.", "quantifier": "all n >= 0 and all odd positive m", "why_tests_cant": "Relies on quadratic reciprocity at every step; unboundedly many inputs.", "anchors": ["include/altruct/algorithm/math/modulos.h:jacobi", "src/algorithm/math/modulos.cpp"]}
{"id": "C11", "title": "Prime sieve", "statement": "primes(p, q, n) returns the number m of primes below n, stores exactly those primes in increasing order in p[0..m) and sets q[i] to 1 exactly for prime i < n, touching no memory outside the arrays (p needs room for one extra terminator entry).", "quantifier": "every sieve bound n", "why_tests_cant": "Every n gives a different loop structure (odd-only sieve, start at i*i); an error could be confined to one composite.", "anchors": ["include/altruct/algorithm/math/primes.h:primes", "src/algorithm/math/primes.cpp:primes"]}
{"id": "C12", "title": "Multiplicative-function tables built from a sieve", "statement": "Given the primes below n, the tables of prime counts, Euler phi, Moebius mu, number of distinct prime factors, smallest/biggest prime factor hold the number-theoretic value at every index below n.", "quantifier": "every table bound n and every index below it", "why_tests_cant": "Each entry is the result of many in-place updates whose order matters; unbounded n.", "anchors": ["include/altruct/algorithm/math/primes.h:prime_pi,euler_phi,moebius_mu,prime_nu,factor", "src/algorithm/math/primes.cpp"]}
{"id": "C13", "title": "Integer factorisation from a factor table and by trial division", "statement": "Factorising n gives a list of (prime, exponent) pairs with distinct primes and positive exponents whose product is n, and from_factorization recovers n; trial division yields the primes in increasing order.", "quantifier": "every n >= 1", "why_tests_cant": "Unboundedly many n and factor shapes.", "anchors": ["include/altruct/algorithm/math/primes.h:factor_integer", "include/altruct/algorithm/math/factorization.h:factor_integer_slow", "include/altruct/algorithm/math/factorization.h:from_factorization"]}
{"id": "C14", "title": "Divisor enumeration and arithmetic functions from a factorisation", "statement": "divisors(vf, maxd) lists every divisor of n not exceeding maxd (all when maxd = 0) exactly once; euler_phi, divisor counts/sums computed from the factorisation have their number-theoretic values.", "quantifier": "every factorisation into distinct primes, every bound", "why_tests_cant": "The number of divisors and of prime factors is unbounded; pruning by maxd must not lose a divisor.", "anchors": ["include/altruct/algorithm/math/primes.h:divisors", "include/altruct/algorithm/math/primes.h:euler_phi"]}
{"id": "C15", "title": "Knuth-Morris-Pratt search", "statement": "kmp_search reports every position where the needle occurs in the haystack, each exactly once and in increasing order (overlaps included), and with an early-stopping callback stops at the first accepted occurrence.", "quantifier": "every alphabet, every needle (non-empty), every haystack", "why_tests_cant": "The failure function's behaviour depends on arbitrary self-overlap structure of strings of any length.", "anchors": ["include/altruct/algorithm/search/kmp_search.h:kmp_search"]}
{"id": "C16", "title": "Binary search with a predicate", "statement": "For a predicate that is monotone on the interval (all arguments where it fails come before all where it holds) the search returns the partition point: the predicate fails on everything before it and holds on everything from it on; it never evaluates the predicate outside the interval and terminates.", "quantifier": "every interval and every monotone predicate", "why_tests_cant": "Off-by-one errors depend on interval length and position of the boundary, for all lengths.", "anchors": ["include/altruct/algorithm/search/binary_search.h:binary_search_pred"]}
{"id": "C17", "title": "Disjoint sets", "statement": "After any sequence of unite operations on a disjoint_set of n elements, find(x) = find(y) exactly when x and y are connected by the performed unions; count() of a set is the size of its class, the number of sets is n minus the number of successful unions, and unite returns whether it merged two different classes.", "quantifier": "every n and every sequence of unite/find calls (path compression included)", "why_tests_cant": "Histories are unbounded and path compression mutates the structure during queries.", "anchors": ["include/altruct/structure/graph/disjoint_set.h:disjoint_set"]}
{"id": "C18", "title": "Fenwick tree prefix sums", "statement": "After any sequence of add(i, v) operations get_sum(i) is the sum of all values added at indices 0..i (for the tree's operation, any commutative monoid), for every index.", "quantifier": "every size, every sequence of updates, every query index", "why_tests_cant": "The implicit tree structure depends on the binary representation of every index.", "anchors": ["include/altruct/structure/math/fenwick_tree.h:fenwick_tree"]}
{"id": "C19", "title": "Binary heap", "statement": "After any sequence of push/pop operations, front() is a minimum (w.r.t. the comparator) of the multiset of elements pushed and not yet popped, pop removes exactly that element, size() is exact, and heap sorting returns the elements in order.", "quantifier": "every comparator that is a strict weak order, every history of operations", "why_tests_cant": "Histories and sizes are unbounded; sift-up/down paths depend on all stored values.", "anchors": ["include/altruct/structure/container/binary_heap.h:binary_heap"]}
{"id": "C20", "title": "Segment tree range queries", "statement": "After any sequence of point updates get(b, e) is the left-to-right combination of the elements b..e-1 (the identity on an empty range), for every associative operation with identity, commutative or not.", "quantifier": "every size, every history of updates, every range, every monoid", "why_tests_cant": "Order of combination and padding depend on size and range; all sizes and ranges must work.", "anchors": ["include/altruct/structure/container/segment_tree.h:segment_tree"]}
{"id": "C21", "title": "Lazy segment tree range updates", "statement": "Any interleaving of range updates and range queries behaves like applying the updates element-wise to a plain array and folding the queried range.", "quantifier": "every size, every interleaving of update/get, every compatible pair of operations", "why_tests_cant": "Pending lazy updates make the state depend on the whole history.", "anchors": ["include/altruct/structure/container/lazy_segment_tree.h:lazy_segment_tree"]}
{"id": "C22", "title": "bit_vector behaves as a sequence of bits", "statement": "set/get/flip/apply/reverse/swap/rotate/shift/count/compare on arbitrary bit ranges have the same effect as on a plain list of booleans, for unaligned and overlapping ranges, and never touch bits outside the range.", "quantifier": "every length, every (unaligned) range, every operation history", "why_tests_cant": "Word-boundary alignment cases multiply (offsets mod 64 of both ranges, lengths, overlap direction).", "anchors": ["include/altruct/structure/container/bit_vector.h:bit_vector"]}
{"id": "C23", "title": "Word-level bit tricks", "statement": "hi_bit, lo_bit, is_pow2, next_pow2, leading/trailing zero counts, population count, bit reversal, Gray code/xor-prefix, or_down and the sign-magnitude conversion return the value defined by the bit positions for every word.", "quantifier": "every word of every supported width", "why_tests_cant": "2^64 inputs; table driven (De Bruijn) variants need every entry to be consistent.", "anchors": ["include/altruct/algorithm/math/bits.h", "src/algorithm/math/bits.cpp"]}
{"id": "C24", "title": "Binary search tree as an ordered collection", "statement": "After any history of insert/erase, in-order iteration yields the stored elements sorted; find, lower_bound, upper_bound, count_less, count_less_or_equal, find_kth and size agree with the sorted sequence, in each duplicate-handling mode (ignore, count, store).", "quantifier": "every strict weak order, every history, each duplicate mode", "why_tests_cant": "Shapes and histories are unbounded; subtree sizes must be maintained along every path.", "anchors": ["include/altruct/structure/container/binary_search_tree.h:binary_search_tree"]}
{"id": "C25", "title": "Treap contents do not depend on the random priorities", "statement": "Whatever non-negative priorities the random generator returns, treap insert and erase give the same ordered contents as the plain tree, rotations preserve order and sizes, and the priorities form a heap as long as no key that is already present is inserted again without being stored (ignore and count modes) and no removal leaves copies of its node behind.", "quantifier": "every history and every sequence of random values", "why_tests_cant": "Random choices create exponentially many shapes per history.", "anchors": ["include/altruct/structure/container/treap.h:treap", "include/altruct/structure/container/binary_search_tree.h:rotate_left,rotate_right"]}
{"id": "C26", "title": "Rope behaves as a sequence", "statement": "insert(pos, value), push_back, erase(pos), erase(begin, end), assignment through operator[], positional access, iteration, iterator arithmetic and size of a rope agree with the same edits on a plain list.", "quantifier": "every history of positional edits and every sequence of random priorities", "why_tests_cant": "Unbounded edit histories; positions shift with each edit.", "anchors": ["include/altruct/structure/container/rope.h:rope"]}
{"id": "C27", "title": "lohi_map and sqrt_map are maps", "statement": "Insertions, lookups and erasures keyed by small keys or by quotients n/k behave as a finite map: distinct keys never collide and lookups return the last value stored.", "quantifier": "every n, every key of the form floor(n/k), every history", "why_tests_cant": "Collision freedom must hold for all quotients of all n.", "anchors": ["include/altruct/structure/container/sqrt_map.h:sqrt_map", "include/altruct/structure/container/lohi_map.h:lohi_map"]}
{"id": "C28", "title": "Infix expressions are parsed with the declared precedence and associativity", "statement": "Converting any well-formed infix token sequence (operands, binary operators, parentheses) to postfix and evaluating it gives the value of the expression tree determined by operator precedence and associativity.", "quantifier": "every operator table and every expression, of any size and nesting", "why_tests_cant": "Infinitely many expressions; interaction of precedence, associativity and parentheses.", "anchors": ["include/altruct/algorithm/parser/shunting_yard.h"]}
{"id": "C29", "title": "Buffered output is transparent", "statement": "Whatever the buffer capacity (>= 1) and however the output is split into writes, after a flush the sink has received exactly the concatenation of the written bytes, in order, once.", "quantifier": "every capacity and every sequence of write/write_char/flush calls", "why_tests_cant": "Buffer boundaries can fall anywhere in any write.", "anchors": ["include/altruct/io/writer.h:buffered_writer", "include/altruct/io/fast_io.h:fast_write"]}
{"id": "C30", "title": "Buffered input is transparent", "statement": "A buffered reader over any source that delivers its bytes in arbitrary chunks returns, over any sequence of read_char/unread_char/read calls, exactly the source's bytes in order.", "quantifier": "every capacity, every chunking, every call sequence", "why_tests_cant": "Chunk boundaries and buffer refills may fall anywhere.", "anchors": ["include/altruct/io/reader.h:buffered_reader", "include/altruct/io/fast_io.h:fast_read"]}
{"id": "C31", "title": "Integer text round trip", "statement": "Writing an integer and reading it back yields the same integer, for every representable value except the most negative one, and the text is the canonical decimal representation (with requested zero padding).", "quantifier": "every integer value and padding length", "why_tests_cant": "All digit counts and signs; 2^64 values.", "anchors": ["include/altruct/io/writer.h", "include/altruct/io/reader.h", "include/altruct/io/fast_io.h"]}
{"id": "C32", "title": "Polynomial rolling hash is position independent", "statement": "For a cumulative hash of any sequence, get(b, e) depends only on the elements in [b,e): it equals the hash of that subsequence hashed on its own, so equal substrings have equal hashes wherever they occur.", "quantifier": "every sequence, every range, every modulus and base with the base invertible", "why_tests_cant": "Quantifies over all sequences and all pairs of ranges.", "anchors": ["include/altruct/algorithm/hash/polynomial_hash.h:cumulative_hash"]}
{"id": "C33", "title": "parallel_execute runs every job exactly once under every schedule", "statement": "Whatever the number of threads and the interleaving, each job produced by the provider is executed exactly once and its result collected exactly once; with a commutative collector the outcome is schedule independent; range_job_provider's jobs partition the range.", "quantifier": "every number of threads, every interleaving of their steps, every job list", "why_tests_cant": "The number of schedules is exponential and not controllable by tests.", "anchors": ["include/altruct/concurrency/concurrency.h:parallel_execute", "include/altruct/concurrency/concurrency.h:range_job_provider"]}
{"id": "C34", "title": "Run-length encoding and lexicographic comparison", "statement": "run_length groups consecutive equal elements so that expanding the groups restores the input and neighbouring groups differ; compare is the lexicographic three-way order.", "quantifier": "every sequence of elements with decidable equality / order", "why_tests_cant": "Sequences of every length.", "anchors": ["include/altruct/algorithm/collections/collections.h:run_length", "include/altruct/algorithm/collections/collections.h:compare"]}
{"id": "C35", "title": "Minimal excluded value", "statement": "reduce_mex of a sorted duplicate-free container is the least non-negative integer absent from it.", "quantifier": "every sorted container of non-negative integers", "why_tests_cant": "Any gap position in containers of every size; duplicates are the corner case.", "anchors": ["include/altruct/algorithm/math/reduce.h:reduce_mex"]}
{"id": "C36", "title": "Fractions are kept canonical and form the field of rationals", "statement": "fraction arithmetic (+, -, *, /, comparison) over the integers agrees with exact rational arithmetic and every result is in lowest terms with a positive denominator, so == is equality of rationals.", "quantifier": "all fractions with non-zero denominators", "why_tests_cant": "Unbounded numerators/denominators and operation sequences.", "anchors": ["include/altruct/structure/math/fraction.h:fraction"]}
{"id": "C37", "title": "Polynomial multiplication", "statement": "The product computed by the schoolbook and by the Karatsuba routine, for any degrees and any truncation degree, has exactly the convolution coefficients of the two polynomials (truncated), including when the destination aliases an operand.", "quantifier": "every commutative ring, all degrees, all truncation lengths", "why_tests_cant": "Karatsuba recursion splits depend on all length combinations.", "anchors": ["include/altruct/structure/math/polynom.h:_mul_long", "include/altruct/structure/math/polynom.h:_mul_karatsuba", "include/altruct/structure/math/polynom.h:_mul"]}
{"id": "C38", "title": "Polynomial division with remainder", "statement": "For a divisor with invertible leading coefficient p1 = (p1/p2)*p2 + p1%p2 with deg(p1%p2) < deg p2.", "quantifier": "all polynomials over a field with non-zero divisor", "why_tests_cant": "All degree combinations; in-place quotient/remainder layout.", "anchors": ["include/altruct/structure/math/polynom.h:quot_rem_long", "include/altruct/structure/math/polynom.h:div", "include/altruct/structure/math/polynom.h:mod"]}
{"id": "C39", "title": "Gaussian elimination: inverse and determinant", "statement": "For a square matrix over a field det() is its determinant and, when it is non-zero, inverse() is its two-sided inverse; rank() equals the size exactly when the matrix is invertible (of a singular matrix it can be smaller than the rank); sum, difference, product, scalar multiple and transpose are the matrix operations.", "quantifier": "all sizes, all square matrices over every field", "why_tests_cant": "Pivoting decisions depend on every entry; singular shapes of every size.", "anchors": ["include/altruct/structure/math/matrix.h:gauss", "include/altruct/structure/math/matrix.h:det,inverse,rank"]}
{"id": "C40", "title": "Permutation notation conversions and group operations", "statement": "Line and cycle notation convert back and forth without loss, applying a product to a line is applying first the right and then the left factor, inv is the inverse, pow(T) is T-fold composition and transpositions rebuild the permutation.", "quantifier": "every n, every permutation of n elements, every exponent", "why_tests_cant": "n! permutations for every n.", "anchors": ["include/altruct/structure/math/permutation.h:permutation"]}
{"id": "C41", "title": "Fast convolutions equal the naive ones", "statement": "or-, and-, xor-, max- and subset-convolution return r[k] = sum of f[i]*g[j] over the pairs with i|j=k, i&j=k, i^j=k, max(i,j)=k, and i|j=k with i&j=0 respectively; the subset-sum transform is inverted by its inverse.", "quantifier": "every size 2^k (every n for max), all input arrays over a commutative ring (2 invertible for xor)", "why_tests_cant": "All sizes and all array contents.", "anchors": ["include/altruct/algorithm/math/convolutions.h"]}
{"id": "C42", "title": "Fast Fourier transform", "statement": "fft_rec computes the DFT at the powers of the given principal root for every power-of-two size; fft_cyclic_convolution computes the cyclic convolution.", "quantifier": "every power-of-two size, every commutative ring with a principal root, all inputs", "why_tests_cant": "All sizes, all rings, all inputs.", "anchors": ["include/altruct/algorithm/math/fft.h:fft_rec", "include/altruct/algorithm/math/fft.h:fft_cyclic_convolution"]}
{"id": "C43", "title": "Fast sums over quotients and floors", "statement": "sum_ratio(a,b,q,n) equals the sum of floor((a*k+b)/q) for k<n for all signs of a, b and q != 0; sum_sqrt/sum_sqrt2m/sum_sqrt2 equal the sums over k of f(n/k), f(k)g(n/k), f(k,n/k).", "quantifier": "all integers a, b, q != 0, n; all functions", "why_tests_cant": "Euclid-like reduction over unbounded arguments; grouping by equal quotients for every n.", "anchors": ["include/altruct/algorithm/math/sums.h:sum_ratio", "include/altruct/algorithm/math/sums.h:sum_sqrt"]}
{"id": "C44", "title": "n-th permutation and combinatorial successors", "statement": "nth_permutation(i) enumerates the permutations of n elements in lexicographic order without repetition, and next_partition/next_combination step to the lexicographic successor, visiting every object exactly once.", "quantifier": "every n and every index", "why_tests_cant": "Factorially many objects per n.", "anchors": ["include/altruct/algorithm/math/combinatorics.h"]}
{"id": "C45", "title": "Continued fractions and convergents", "statement": "continued_fraction(p,q) followed by convergents gives p/q (reduced) as the last convergent, and consecutive convergents satisfy p_k q_{k-1} - p_{k-1} q_k = +-1.", "quantifier": "all integers p >= 0, q > 0", "why_tests_cant": "Unbounded Euclid trajectories.", "anchors": ["include/altruct/algorithm/math/convergents.h:continued_fraction", "include/altruct/algorithm/math/convergents.h:convergents"]}
{"id": "C46", "title": "bounded_contiguous_allocator never hands out a live slot", "statement": "Over any history of allocate/deallocate in which only live pointers are freed, allocate never returns a slot that is still live, all returned slots lie in the pool, and allocation fails exactly when all slots are live.", "quantifier": "every capacity and every history", "why_tests_cant": "Histories are unbounded; aliasing bugs depend on the free order.", "anchors": ["include/altruct/structure/container/bounded_contiguous_allocator.h"]}
{"id": "C47", "title": "Link-cut tree answers forest queries", "statement": "After any sequence of add/link/cut, find_root, find_parent, find_lca, depth and path aggregation report the values of the represented rooted forest, whatever the internal splay shape.", "quantifier": "every history of link/cut/queries", "why_tests_cant": "Every query restructures the splay trees; state space is exponential.", "anchors": ["include/altruct/structure/container/link_cut_tree.h:link_cut_tree"]}
{"id": "C48", "title": "Graph edits", "statement": "delete_edge(u,v) removes exactly the edges from u to v; delete_node(u) removes u with all incident edges and renumbers the last node to u, leaving all other edges intact.", "quantifier": "every graph (multigraph) and every u, v", "why_tests_cant": "Swap-with-last removal while iterating: all multiplicities and positions matter.", "anchors": ["include/altruct/structure/graph/graph.h:graph"]}
{"id": "C49", "title": "Linear recurrences by polynomial exponentiation", "statement": "linear_recurrence(coeff, init, n) returns the n-th term of the sequence defined by the initial values and the recurrence; Fibonacci and Lucas numbers follow.", "quantifier": "every order L >= 1, all coefficients and initial values, every n", "why_tests_cant": "Unbounded n and arbitrary rings.", "anchors": ["include/altruct/algorithm/math/recurrence.h:linear_recurrence"]}
{"id": "C50", "title": "Miller-Rabin never rejects a prime; general factorisation is a factorisation", "statement": "miller_rabin(n, bases) returns true for every prime n and every base list; factor_integer returns pairs whose product of powers is n.", "quantifier": "every prime n, every base list; every n >= 1", "why_tests_cant": "Infinitely many primes.", "anchors": ["include/altruct/algorithm/math/factorization.h:miller_rabin", "include/altruct/algorithm/math/factorization.h:factor_integer"]}
{"id": "C51", "title": "Radix and repeating-decimal digits", "statement": "integer_digits/from_digits are mutually inverse; rational digit and repeating-decimal routines return the true expansion with the minimal pre-period and period.", "quantifier": "every base >= 2, every number or fraction", "why_tests_cant": "Unbounded values and bases.", "anchors": ["include/altruct/algorithm/math/primes.h:integer_digits", "include/altruct/algorithm/math/fractions.h"]}
{"id": "C52", "title": "Dirichlet convolution, division and inverse tables", "statement": "dirichlet_convolution fills h[k] with the sum over divisors of f(d)g(k/d); dirichlet_division/inverse yield the h with h*g = f; the multiplicative variants agree.", "quantifier": "every n and all arithmetic functions f, g (g(1) invertible)", "why_tests_cant": "All functions and all table bounds; in-place updates depend on order.", "anchors": ["include/altruct/algorithm/math/divisor_sums.h:dirichlet_convolution,dirichlet_division,dirichlet_inverse"]}
{"id": "C53", "title": "Rational approximation of square roots", "statement": "sqrt_convergent(S, Q) returns the first convergent of the continued fraction of sqrt(S), in lowest terms, whose denominator exceeds Q (the exact root when S is a square).", "quantifier": "every S >= 0 and every bound Q", "why_tests_cant": "Continued fractions of square roots have unbounded periods.", "anchors": ["include/altruct/algorithm/math/convergents.h:sqrt_convergent"]}
{"id": "C54", "title": "Berlekamp-Massey finds the minimal recurrence", "statement": "berlekamp_massey_poly of the first N elements of a linearly recurrent sequence returns the monic minimal polynomial of the sequence, and berlekamp_massey the coefficients of the shortest recurrence, whenever some recurrence of order at most N/2 exists.", "quantifier": "every field, every sequence, every N >= 2", "why_tests_cant": "Arbitrary sequences over arbitrary fields; correctness concerns all terms beyond those given.", "anchors": ["include/altruct/algorithm/math/recurrence.h:berlekamp_massey_poly", "include/altruct/algorithm/math/recurrence.h:berlekamp_massey"]}
{"id": "C55", "title": "Bernoulli numbers", "statement": "bernoulli_b(n) returns the Bernoulli numbers B_0..B_n with B_1 = +1/2 (and, in any field where 1..n+1 are invertible, the numbers satisfying the same recurrence).", "quantifier": "every n; every field where 1..n+1 are invertible", "why_tests_cant": "Unbounded n; the in-place table is an identity about all rows.", "anchors": ["include/altruct/algorithm/math/recurrence.h:bernoulli_b"]}
{"id": "C56", "title": "Farey neighbours enumerate the Farey sequence", "statement": "farey_neighbour(n, f_prev, f) with f_prev the left (right) neighbour of f among the fractions with denominators up to n, or -inf (+inf) when f >= 0, returns the right (left) neighbour of f in lowest terms; walking from f with -inf visits in order every fraction with denominator up to n that is at least f.", "quantifier": "every n, every reduced fraction with denominator up to n", "why_tests_cant": "All orders and all fractions; nothing between two consecutive results is a statement about infinitely many fractions.", "anchors": ["include/altruct/algorithm/math/fractions.h:farey_neighbour"]}
{"id": "C57", "title": "sum_m inverts t(n) = Sum[p(k) M(n/k)]", "statement": "Given t, the partial sums s of p and a (partly filled, right) table, sum_m returns M(n) and only ever stores values of M in the table.", "quantifier": "every n, all functions t, s, M related by the equation, every partly filled table", "why_tests_cant": "The recursion touches all quotients of all n; memoised values from any earlier history must be harmless.", "anchors": ["include/altruct/algorithm/math/divisor_sums.h:sum_m"]}
{"id": "C58", "title": "Square-free counts", "statement": "sqfree_count(n) and the tables of sieve_sqfree_count hold the number of square-free numbers up to n.", "quantifier": "every n and every partly filled table", "why_tests_cant": "All n; the grouping by quotients has boundary cases at squares and cubes.", "anchors": ["include/altruct/algorithm/math/divisor_sums.h:sqfree_count,sieve_sqfree_count"]}
{"id": "C59", "title": "Sums over coprime numbers and divisor sigma", "statement": "coprime_sum over distinct primes is the sum of f(k) over the k up to n coprime to all of them; divisor_sigma fills a table with the sums of k-th powers of divisors.", "quantifier": "every n, every list of distinct primes, every f, every exponent", "why_tests_cant": "Inclusion-exclusion over arbitrary prime sets; all table bounds.", "anchors": ["include/altruct/algorithm/math/divisor_sums.h:coprime_sum,divisor_sigma"]}
{"id": "C60", "title": "Truncated power series", "statement": "Every operation of a series of precision N agrees with the operation on formal power series up to x^N: +, -, *, /, inverse, derivative, integral, composition, substitution, powers, ln, exp (mutually inverse), reversion (two-sided compositional inverse), generating function conversions and the Newton iteration find_root.", "quantifier": "every field (rings where only exact division by the constant term is needed), every precision N >= 1, every coefficient list, every exponent, every multiplication threshold", "why_tests_cant": "Newton iterations double the precision from every start length and clip at N; a wrong clip only shows at particular N; all coefficient values matter.", "anchors": ["include/altruct/structure/math/series.h:series,inverse,operator /,integral,ln,exp,pow,composition,reversion,find_root,make_exponential,make_ordinary"]}
{"id": "C61", "title": "Range transforms", "statement": "range, powers, factorials, power, negate, alternate, accumulate, differentiate, inv_factorials, inverses, invert and invert_field produce exactly the sequences they name; accumulate and differentiate invert each other; invert_field inverts all non-zero elements with one division.", "quantifier": "every length and every element of every field or commutative ring", "why_tests_cant": "All lengths including the boundary ones; the cumulative-product trick of invert_field couples every element with every other one.", "anchors": ["include/altruct/algorithm/math/ranges.h:range,powers,factorials,inv_factorials,inverses,power,invert,negate,alternate,accumulate,differentiate"]}
{"id": "C62", "title": "Multiplicative orders, primitive roots and k-th roots", "statement": "euler_phi, carmichael_lambda, divisor_sigma0, prime_factors and squarefree_signed_divisors evaluate the named function from a factorization; multiplicative_order returns the least k > 0 with a^k = 1; primitive_root returns the least primitive root, and 0 exactly when none exists; primitive_root_of_unity returns an element whose order is the exponent of the unit group; kth_roots and kth_roots_of_unity return exactly the k-th roots when a primitive root exists.", "quantifier": "every modulus, every factorization into prime powers, every element coprime to the modulus, every k", "why_tests_cant": "Minimality and completeness quantify over all smaller exponents and over all residues, and the existence claim is a theorem about all moduli.", "anchors": ["include/altruct/algorithm/math/modulos.h:multiplicative_order,multiplicative_order_g,primitive_root,primitive_root_of_unity,kth_roots,kth_roots_of_unity", "include/altruct/algorithm/math/primes.h:euler_phi,carmichael_lambda,divisor_sigma0,prime_factors,squarefree_signed_divisors"]}
{"id": "C63", "title": "Discrete logarithms", "statement": "Each discrete_log variant (brute force, baby-step giant-step, Shanks, prime power order, Pohlig-Hellman, modulo powers of 2, modulo prime powers) returns the least x with a^x = b (the one modulo prime powers some x); the variants that report failure do so exactly when no x exists.", "quantifier": "every group element, every modulus, every order, every factorization of the order, for the variants with a precondition every b that is a power of a", "why_tests_cant": "Absence of a logarithm and minimality are statements about all exponents; the digit-by-digit and CRT reconstructions have to be right for every digit pattern.", "anchors": ["include/altruct/algorithm/math/modulos.h:discrete_log,discrete_log_g,discrete_log_brute_force,discrete_log_baby_giant,discrete_log_shanks,discrete_log_oddp,discrete_log_order_pp_g,discrete_log_p2,discrete_log_pp"]}
{"id": "C64", "title": "Modular square roots", "statement": "sqrt_cipolla returns a square root whenever there is one and always ends; the Hensel lifts return roots modulo p^k, modulo 2^k all of them; sqrt_mod returns exactly the set of all the square roots modulo a composite number, for every y >= 0 coprime to it.", "quantifier": "every prime, every exponent, every residue (coprime to the modulus for the lifts and sqrt_mod), every factorization into distinct prime powers", "why_tests_cant": "The set returned must contain every root for every modulus; the number of roots varies with the factorization and the common factors of y and the modulus.", "anchors": ["include/altruct/algorithm/math/modulos.h:sqrt_cipolla,sqrt_hensel_lift,sqrt_hensel_lift_p2,sqrt_mod"]}
{"id": "C65", "title": "Garner's mixed radix conversion", "statement": "garner turns remainders modulo pairwise coprime moduli into mixed radix digits x[i] < p[i] whose value Sum[x[i] * q[i]] has exactly these remainders, and is the only such number below the product of the moduli.", "quantifier": "every number of congruences, every increasing list of pairwise coprime moduli of a machine word, every remainders", "why_tests_cant": "The digits depend on all the earlier ones through a chain of modular divisions; all moduli and all remainders matter, and the value does not fit any machine type in general.", "anchors": ["include/altruct/algorithm/math/modulos.h:garner"]}
{"id": "C66", "title": "Quadratic numbers", "statement": "quadratic numbers a + b sqrt(D) (complex numbers for D = -1) form a commutative ring: the operations agree with computing on a + b r for every r with r^2 = D; the norm is multiplicative and the product with the conjugate; division over a field is exact and unique; integer division is exact when possible and satisfies x = y * (x / y) + x % y; == is equality of both parts and < a strict total (lexicographic) order.", "quantifier": "every commutative ring (field for division) of coefficients, every D, every pair of numbers, every power", "why_tests_cant": "Identities over all coefficients of all coefficient types; and whether Euclid's algorithm ends is a statement about infinitely many steps.", "anchors": ["include/altruct/structure/math/quadratic.h:quadratic,conjugate,norm,operator *,operator /,operator %", "include/altruct/structure/math/complex.h:complex", "include/altruct/algorithm/math/base.h:gcd,powT"]}
{"id": "C67", "title": "Nimbers: products, square roots, inverses and quotients", "statement": "The nimber class computes Conway's nim arithmetic on one machine word. The sum is bitwise exclusive or. Both multiplication algorithms return the nim product defined by its game rule (the least value not of the form a'b + ab' + a'b'). sqrt returns the unique square root. inverse returns the inverse of every non-zero value and 0 for 0. x / y is the unique z with z*y = x for y != 0. Whatever products, inverses and quotients were computed before, the values cached by earlier calls never change a result.", "quantifier": "all word widths 2^K (8, 16, 32, 64 bits and others up to 2^31), all operands of that width, all histories of calls", "why_tests_cant": "64-bit operands and the cache state give far more cases than can be tried, and the recursive definition by minimal excluded values can not be evaluated beyond tiny operands", "anchors": ["include/altruct/structure/math/nimber.h:nimber", "include/altruct/structure/math/nimber.h:mul", "include/altruct/structure/math/nimber.h:mul2", "include/altruct/structure/math/nimber.h:mul_pow2", "include/altruct/structure/math/nimber.h:sqrt", "include/altruct/structure/math/nimber.h:inverse", "include/altruct/structure/math/nimber.h:lift"]}
{"id": "C68", "title": "Point at infinity and Moebius transformations", "statement": "with_infinity follows its documented addition, subtraction, multiplication and division tables. A Moebius or anti-Moebius transformation with finite coefficients and non-zero determinant evaluates, at every point including infinity and the pole, to (a z + b) / (c z + d) with z conjugated when s = -1. (f * g)(z) = f(g(z)), the inverse undoes the transformation on both sides, (f / g)(g(z)) = f(z), and normalize keeps the map and gives the same coefficients for any two transformations with the same map.", "quantifier": "all fields with an involution, all transformations with non-zero determinant, all points of the projective line", "why_tests_cant": "poles and infinity are single points among infinitely many, and the identities must hold for every choice of coefficients", "anchors": ["include/altruct/structure/math/with_infinity.h:with_infinity", "include/altruct/structure/math/moebius_tr.h:moebius_tr", "include/altruct/structure/math/moebius_tr.h:inverse", "include/altruct/structure/math/moebius_tr.h:normalize"]}
{"id": "C69", "title": "Geometric algebra of space", "statement": "clifford3's rotors, vectors and multivectors compute in the Clifford algebra Cl(3,0): the product is associative and bilinear, the generators square to one and anticommute, products in all combinations of the three classes agree, and in every algebra with orthonormal generators the product of the values is the value of the product. rev and conj are the anti-automorphisms that keep and negate the generators. inv returns the two-sided inverse of every invertible multivector. reflect mirrors a vector along a unit vector; rotate by a unit rotor preserves dot and cross products and composes; make_rotor turns the first direction into the second unless they are opposite.", "quantifier": "all commutative coefficient rings (ordered fields for the inverses and make_rotor), all multivectors", "why_tests_cant": "sign errors in any of the 64 products of basis elements may stay unnoticed for particular values; the claims are polynomial identities over all coefficients", "anchors": ["include/altruct/structure/math/clifford3.h:rotor", "include/altruct/structure/math/clifford3.h:vector", "include/altruct/structure/math/clifford3.h:multivector", "include/altruct/structure/math/clifford3.h:make_rotor"]}
{"id": "C70", "title": "Plane-based geometric algebra", "statement": "pga.h computes in the Clifford algebra Cl(3,0,1): the geometric product of all 36 pairs of blades, extended to sums, is the product of that algebra; the wedge product is that of the exterior algebra; the dot product is the part of grade |r-s|; the join is the dual of the wedge of the duals; rev is the reversing anti-automorphism; the sandwich product b % a is (+/-) b a rev(b) for all 13 blade types (for lines, motors and odd sums only for orthogonal b); inv returns the two-sided inverse exactly when the norm is nonzero (for lines when the parts are perpendicular). Geometrically: meets and joins of planes, lines and points are their intersections and spans, translators translate, rotors rotate by Rodrigues' formula, reflections reflect, and motors compose.", "quantifier": "all commutative coefficient rings (fields for inverses), all multivectors, planes, lines, points and motors", "why_tests_cant": "222 hand-written product formulas over 16 coordinates; a wrong sign changes the result only for inputs where that coordinate is nonzero, and the claims are polynomial identities", "anchors": ["include/altruct/structure/math/pga.h:operator*", "include/altruct/structure/math/pga.h:operator^", "include/altruct/structure/math/pga.h:operator&", "include/altruct/structure/math/pga.h:operator|", "include/altruct/structure/math/pga.h:operator%", "include/altruct/structure/math/pga.h:inv", "include/altruct/structure/math/pga.h:translator", "include/altruct/structure/math/pga.h:rotor"]}
{"id": "C71", "title": "Sums of powers, power-geometric sums and discrete integrals are exact", "statement": "sum_pow(p, n) returns 1^p + ... + n^p for every n >= 0, whatever calls were made before (the static Bernoulli table only grows): for p <= 3 whenever division by 2 and 6 is exact (so also for integers), for larger p in every field in which the numbers up to 3p/2 + 1 are invertible. sum_powx(m, x, n) returns the sum of k^m x^k for k = 1..n whenever (x - 1)^(m+1) can be divided exactly. polynom_sum(p) returns the polynomial s with s(0) = 0 and s(x + 1) - s(x) = p(x + 1), so s(n) = p(1) + ... + p(n). triangular, tetrahedral and pyramidal numbers are the sums they are named after; sum_sigma0/1/2(n) are the sums of the divisor functions over 1..n.", "quantifier": "all exponents, all n, all sequences of calls, all fields (or rings with exact division by the named constants), all polynomials", "why_tests_cant": "Faulhaber's formula must hold for every exponent and the loop computes the binomials by alternating multiplications and divisions; a table test covers a few small exponents, and the static table depends on the history of calls.", "anchors": ["include/altruct/algorithm/math/sums.h:sum_pow", "include/altruct/algorithm/math/sums.h:sum_powx", "include/altruct/algorithm/math/polynoms.h:polynom_sum", "include/altruct/algorithm/math/sequences.h:triangular", "include/altruct/algorithm/math/sequences.h:sum_sigma1"]}
{"id": "C72", "title": "Prime counting and sums of powers of primes are exact", "statement": "For every n >= 1, prime_power_sum_sqrt(z, n) answers, for every v of the form n / k with 1 <= k <= n (and for every v up to the square root of n), the sum of p^z over the primes p <= v; no access is out of bounds. prime_sum(n) is the sum of the primes up to n and prime_pi(n) their number, for every n >= 0 and whatever calls were made before. prime_pi13_sqrt(n) answers, for all v = n / k, the numbers of primes up to v that are 1 and that are 3 modulo 4, and prime_pi1(n), prime_pi3(n) are these numbers for n.", "quantifier": "all n, all quotients n / k, all exponents z, all fields in which the small numbers are invertible (integers for z <= 3)", "why_tests_cant": "The algorithm updates O(sqrt n) partial sums in place, in an order that must not read already updated entries, and relies on every n/(kp) being stored; errors show up only for particular residues of n near squares. Tables of known values cover finitely many n.", "anchors": ["include/altruct/algorithm/math/prime_counting.h:prime_power_sum_sqrt", "include/altruct/algorithm/math/prime_counting.h:prime_sum", "include/altruct/algorithm/math/prime_counting.h:prime_pi", "include/altruct/algorithm/math/prime_counting.h:prime_pi13_sqrt", "include/altruct/algorithm/math/prime_counting.h:prime_pi1"]}
{"id": "C73", "title": "Prime exponents of factorials and multinomials are exact", "statement": "For every n and prime p, factorial_prime_exponent(n, p) is the exponent of p in n!; binomial_prime_exponent(n, k, p) the exponent in C(n, k) for k <= n, and multinomial_prime_exponent(ks, p) the exponent in the multinomial coefficient. multinomial(ks) is (sum of ks)! divided by the product of the factorials, computed without any inexact division; elements_multinomial of a sorted sequence is the number of its distinct arrangements.", "quantifier": "all n, k <= n, all lists ks, all primes p, all sorted sequences", "why_tests_cant": "multinomial multiplies and divides in an interleaved order: that every intermediate division is exact is a divisibility fact about products of consecutive numbers; a test can only sample argument lists.", "anchors": ["include/altruct/algorithm/math/comb_primes.h:factorial_prime_exponent", "include/altruct/algorithm/math/comb_primes.h:binomial_prime_exponent", "include/altruct/algorithm/math/comb_primes.h:multinomial_prime_exponent", "include/altruct/algorithm/math/counting.h:multinomial", "include/altruct/algorithm/math/counting.h:elements_multinomial"]}
{"id": "C74", "title": "Stirling numbers of both kinds are exact", "statement": "stirling_s1(n, k), the tables, rows and columns of stirling_s1_all* give the signed Stirling numbers of the first kind, i.e. the coefficients of x (x-1) ... (x-n+1); stirling_s2(n, k) and the functions stirling_s2_all* give the numbers of partitions of an n-element set into k blocks. No access is out of bounds for the documented arguments.", "quantifier": "all n, k, all fields where the required factorials are invertible, and the integers where the code divides exactly", "why_tests_cant": "Three different algorithms (recurrence tables, product trees, exponential generating functions, inclusion-exclusion) must agree for every n and k; the truncation of series products and in-place row updates go wrong only for particular sizes.", "anchors": ["include/altruct/algorithm/math/counting.h:stirling_s1_all", "include/altruct/algorithm/math/counting.h:stirling_s1_all_k_for_n", "include/altruct/algorithm/math/counting.h:stirling_s1_all_n_for_k", "include/altruct/algorithm/math/counting.h:stirling_s1", "include/altruct/algorithm/math/counting.h:stirling_s2_all", "include/altruct/algorithm/math/counting.h:stirling_s2_all_n_for_k", "include/altruct/algorithm/math/counting.h:stirling_s2_all_k_for_n", "include/altruct/algorithm/math/counting.h:stirling_s2"]}
{"id": "C75", "title": "The Euler function and partition numbers are exact", "statement": "For every n >= 1, euler_function(n) is the first n coefficients of the infinite product (1-x)(1-x^2)(1-x^3)...; partitions_p_slow(n) and partitions_p(n) both return the numbers of partitions of 0, ..., n-1; partitions_p_distinct_slow(n) and partitions_p_distinct(n) the numbers of partitions into distinct parts, partitions_p_distinct_odd(n) into distinct odd parts.", "quantifier": "all n >= 1, all rings (for the series versions: in which division by one is exact), all multiplication thresholds", "why_tests_cant": "Correctness is the pentagonal number theorem together with signs read off the parity of a loop counter and in-place updates in ascending or descending order; a test compares only a prefix of a known table.", "anchors": ["include/altruct/algorithm/math/counting.h:euler_function", "include/altruct/algorithm/math/counting.h:partitions_p_slow", "include/altruct/algorithm/math/counting.h:partitions_p", "include/altruct/algorithm/math/counting.h:partitions_p_distinct_slow", "include/altruct/algorithm/math/counting.h:partitions_p_distinct", "include/altruct/algorithm/math/counting.h:partitions_p_distinct_odd"]}
{"id": "C76", "title": "Sums of two squares: found, listed completely and counted", "statement": "squares_r_prime(p) for a prime p = 1 mod 4 returns 0 < a <= b with a^2 + b^2 = p, and cornacchia(d, p) returns x, y with x^2 + d y^2 = p whenever such x, y exist. squares_r_prime_table(n) has an entry exactly for the numbers up to n that are sums of two positive squares. squares_r_list returns in increasing order, without repetition and without omission, all the representations of n (within the limit max_b), for every correct lookup table; squares_r returns their number, up to sign and order or not.", "quantifier": "all primes, all factorizations, all lookup tables with correct entries, all limits", "why_tests_cant": "Completeness of the list is unique factorization of Gaussian integers, and the truncation by max_b in the middle of the computation must not lose any representation; a test can compare only small n.", "anchors": ["include/altruct/algorithm/math/squares_r.h:cornacchia", "include/altruct/algorithm/math/squares_r.h:squares_r_prime", "include/altruct/algorithm/math/squares_r.h:squares_r_prime_table", "include/altruct/algorithm/math/squares_r.h:squares_r_list", "include/altruct/algorithm/math/squares_r.h:squares_r"]}
{"id": "C77", "title": "Factorials and binomials modulo prime powers are exact", "statement": "factorials_mod_pp_skipped(n, p, e) and factorial_mod_pp_skipped_slow give i! / (u! p^u), u = i / p, modulo p^e; factorial_mod_pp_reduced_slow and, with a look-up table up to p^e, factorial_mod_pp_reduced_2 give the largest a with p^a dividing n! and n! / p^a modulo p^e; binomial_mod_pp_reduced_slow and binomial_mod_pp_reduced_2 the same for C(n, k), k <= n. No access to the table is out of bounds.", "quantifier": "all primes p, all exponents e, all n, all k <= n, all correct tables of at least p^e entries", "why_tests_cant": "The fast version relies on Wilson's theorem modulo prime powers, whose sign differs for 2, 4 and higher powers of 2, and on cancelling factors p before reduction; tests sample a few moduli.", "anchors": ["include/altruct/algorithm/math/comb_mod_pp.h:factorials_mod_pp_skipped", "include/altruct/algorithm/math/comb_mod_pp.h:factorial_mod_pp_skipped_slow", "include/altruct/algorithm/math/comb_mod_pp.h:factorial_mod_pp_reduced_slow", "include/altruct/algorithm/math/comb_mod_pp.h:binomial_mod_pp_reduced_slow", "include/altruct/algorithm/math/comb_mod_pp.h:factorial_mod_pp_reduced_2", "include/altruct/algorithm/math/comb_mod_pp.h:binomial_mod_pp_reduced_2"]}
{"id": "C78", "title": "Pythagorean triples are listed completely and once", "statement": "pythagorean_triples(c_max, only_primitive) visits every triple 0 < a < b < c <= c_max with a^2 + b^2 = c^2 (only the coprime ones on request) exactly once and nothing else; pythagorean_triples_fixed_leg(leg, f) visits every right triangle with that leg exactly once.", "quantifier": "all limits, both modes, all legs with their factorizations", "why_tests_cant": "Completeness is the classification of all primitive triples and the exact loop bounds from integer square roots; a test only sees the triples below a few limits.", "anchors": ["include/altruct/algorithm/math/triples.h:pythagorean_triples", "include/altruct/algorithm/math/triples.h:pythagorean_triples_fixed_leg"]}
{"id": "C79", "title": "The tree of triples with a^2 + b^2 + k = c^2 is complete, without repetition", "statement": "generate_pythagorean_triples(n, pythagorean_triples_generators(k)) ends and returns every triple 0 <= a <= b, c <= n without a common divisor and with a^2 + b^2 + k = c^2 exactly once (for k <= 1 those with a > 0); other than these it only returns generators. For k >= 2 the generators are the solutions with a + 2b < 2c, each once.", "quantifier": "all k >= 0, all n", "why_tests_cant": "The search bounds of the generators and the descent to them hold for all k; a missed generator loses an infinite subtree that may start far above the tested limits.", "anchors": ["include/altruct/algorithm/math/triples.h:pythagorean_triples_generators", "include/altruct/algorithm/math/triples.h:generate_pythagorean_triples", "include/altruct/algorithm/math/triples.h:is_pythagorean_triple_generator"]}
{"id": "C80", "title": "Eisenstein triples are listed completely and once", "statement": "eisenstein_triples120(c_max, only_primitive) visits every triple 0 < a < b < c <= c_max with a^2 + a b + b^2 = c^2 (only the coprime ones on request) exactly once and nothing else; eisenstein_triples60 the same for a^2 - a c + c^2 = b^2, together with the equilateral triangles a = b = c.", "quantifier": "all limits, both modes", "why_tests_cant": "Completeness and uniqueness rest on a parametrisation with a common factor 3 for a third of the parameters, which one function skips and the other divides out; tests only see small limits.", "anchors": ["include/altruct/algorithm/math/triples.h:eisenstein_triples60", "include/altruct/algorithm/math/triples.h:eisenstein_triples120"]}
{"id": "C81", "title": "Almost-Pythagorean triples are listed completely and once", "statement": "almost_pythagorean_triples(c_max) visits every triple of positive integers with a^2 + b^2 = c^2 + 1 and c <= c_max exactly once, in both orders of a and b.", "quantifier": "all limits", "why_tests_cant": "The cofactors come from the extended Euclidean algorithm with special cases, and duplicates are recognised by the parity of c; tests only see small limits.", "anchors": ["include/altruct/algorithm/math/triples.h:almost_pythagorean_triples"]}
{"id": "C82", "title": "Random values land in the requested range without bias, and the xorshift generators never get stuck", "statement": "integer_to_range(val, min, max) is min + val mod (max - min + 1), also for the full range of the type. uniform_next consumes between 1 and 20 values, skips only values at or above the biggest multiple of the width, and over the values it accepts every result of [min, max] is hit equally often. From any nonzero seed xorshift_64star never reaches the state 0, never returns 0, gives different numbers for different states and returns to its seed; xorshift_1024star never reads outside its state, its step is injective and a state that is not everywhere zero stays so.", "quantifier": "all unsigned word sizes, ranges, values, streams and seeds", "why_tests_cant": "The words wrap around and 2^64 is written as 0; uniformity is a counting statement over all 2^w values and the generators have astronomically many states.", "anchors": ["include/altruct/algorithm/random/random.h:integer_to_range", "include/altruct/algorithm/random/random.h:biggest_multiple", "include/altruct/algorithm/random/random.h:uniform_next", "include/altruct/algorithm/random/xorshift.h:xorshift_64star", "include/altruct/algorithm/random/xorshift.h:xorshift_1024star"]}
{"id": "C83", "title": "galois_field_2 computes in every bit lane as in the field with two elements", "statement": "Addition, subtraction, negation, multiplication, zero and one of galois_field_2<I> act on each bit as in GF(2); division is exact in every lane with a nonzero divisor (and gives 1 in the others), so (a / b) * b == a exactly when a is zero wherever b is.", "quantifier": "all words of any width and all lanes", "why_tests_cant": "The statement is about every lane of every pair of words.", "anchors": ["include/altruct/structure/math/galois_field_2.h:galois_field_2"]}
{"id": "C84", "title": "vector2d, vector3d and vectorNd are ordered lexicographically and satisfy the identities of plane and space geometry", "statement": "The comparison operators are the lexicographic total order on coordinates (the payload is ignored); dot, cross, rot, irot, perp, abs2 satisfy the identities of Lagrange and of complex multiplication, and do not depend on the origin; compound assignment agrees with the binary operators, element by element, unless the scalar argument is an element of the vector itself.", "quantifier": "all vectors over any commutative ring or linear order and all dimensions", "why_tests_cant": "Identities over all coordinates; the aliasing of a reference argument is invisible to tests that pass constants.", "anchors": ["include/altruct/structure/math/vector2d.h:vector2d", "include/altruct/structure/math/vector3d.h:vector3d", "include/altruct/structure/math/vectorNd.h:vectorNd"]}
{"id": "C85", "title": "pell_PQa expands (P0 + sqrt D) / Q0 into its continued fraction and returns the length of the period", "statement": "For a positive non-square D and Q0 != 0 with Q0 | D - P0^2, pell_PQa terminates. The entries a are the floors of the complete quotients (P + sqrt D) / Q, A / B are the convergents, G = Q0 A - P0 B and G[i]^2 - D B[i]^2 = (-1)^(i+1) Q[i+1] Q0; the returned l is the exact period length; a further call appends exactly one more period.", "quantifier": "all positive non-square D, all P0 and Q0, any number of calls", "why_tests_cant": "Termination and minimality of the period are facts of number theory about every D; floors of quotients with negative denominators occur only for some starting values.", "anchors": ["include/altruct/algorithm/math/pell.h:pell_PQa"]}
{"id": "C86", "title": "pell1 finds the least positive solution of x^2 - D y^2 = 1 or -1, whose powers are all the solutions", "statement": "pell1(D, N, x0, y0) with N = 1 or -1 returns 0 exactly when there is no solution; otherwise (x0, y0) is the least positive solution and the positive solutions are exactly its powers (the odd powers for N = -1). The listing variant returns exactly the solutions within the limits, in increasing order.", "quantifier": "all positive non-square D and all limits", "why_tests_cant": "The least solution can be huge for small D and no search can show that a solution does not exist.", "anchors": ["include/altruct/algorithm/math/pell.h:pell1"]}
{"id": "C87", "title": "pellS finds the least positive solution of every class of x^2 - D y^2 = N when N^2 < D", "statement": "For N != 0 and N^2 < D the pairs appended by pellS times the powers of the least positive solution of x^2 - D y^2 = 1 are exactly the positive solutions of x^2 - D y^2 = N; no solution is reached from two pairs and each pair is the least in its class.", "quantifier": "all positive non-square D and all N with N^2 < D", "why_tests_cant": "Completeness needs the theorem that every such solution is a convergent; there are infinitely many solutions.", "anchors": ["include/altruct/algorithm/math/pell.h:pellS"]}
{"id": "C88", "title": "pell_mz finds a solution of x^2 - D y^2 = m in a given class", "statement": "For m != 0 and z^2 = D (mod m), pell_mz terminates; when it returns nonzero, (x0, y0) satisfies x^2 - D y^2 = m and x + z y = 0 (mod m), and every solution of the class is (x0, y0) times a solution of u^2 - D v^2 = 1; when it returns 0 the arguments are unchanged, and if x^2 - D y^2 = -1 has no solution the class is empty.", "quantifier": "all positive non-square D, all m and all classes z", "why_tests_cant": "That no solution exists cannot be tested; the denominator -1 that goes unnoticed occurs only before the period.", "anchors": ["include/altruct/algorithm/math/pell.h:pell_mz"]}
{"id": "C89", "title": "pell(D, N, fN) returns one solution for each class of x^2 - D y^2 = N", "statement": "Every returned number is a solution; no two differ by a factor of norm 1; and if x^2 - D y^2 = -1 has no solution then every solution of any signs is, up to sign, a returned one times a positive or negative power of the least solution of x^2 - D y^2 = 1.", "quantifier": "all positive non-square D, all N != 0 with their factorization", "why_tests_cant": "Completeness quantifies over infinitely many solutions.", "anchors": ["include/altruct/algorithm/math/pell.h:pell"]}
{"id": "C90", "title": "the listing variant of pell visits distinct nonnegative solutions within the limits and terminates", "statement": "With a positive x_max, y_max or count the listing terminates; it visits, each once, solutions with x, y >= 0 within the limits and at most count of them; without count it visits v u^k for every k within the limits, for each solution v of pell(D, N, fN) with nonnegative components, u the least solution of x^2 - D y^2 = 1.", "quantifier": "all positive non-square D, all N != 0, all limits", "why_tests_cant": "Termination and absence of repetitions hold for every equation, not for the few in a test.", "anchors": ["include/altruct/algorithm/math/pell.h:pell"]}
{"id": "C91", "title": "Transitive closure and transitive reduction", "statement": "transitive_closure(g) ends and returns a graph on the same nodes in which there is an edge from u to v exactly when g has a path of at least one edge from u to v, and no edge is repeated. transitive_reduction(g) of an acyclic graph is a subgraph of g with the same reachability, and its edges are contained in every relation with that reachability: it is the least one.", "quantifier": "every directed graph (closure), every acyclic directed graph (reduction)", "why_tests_cant": "Reachability and minimality quantify over all walks and all smaller graphs.", "anchors": ["experimental/include/altruct/algorithm/graph/transitive_closure.h:transitive_closure", "experimental/include/altruct/algorithm/graph/transitive_closure.h:transitive_reduction"]}
{"id": "C92", "title": "All-pairs shortest paths (Floyd-Warshall)", "statement": "floyd_warshall(g, inf) returns for every pair of nodes the least weight of a walk from one to the other, and the first node after the start on a walk of that weight; { -1, inf } when there is no walk. Negative weights are allowed as long as no cycle has negative weight.", "quantifier": "every weighted directed graph without a negative cycle, inf larger than the weights of all simple walks", "why_tests_cant": "Minimality is over infinitely many walks, for all graphs.", "anchors": ["experimental/include/altruct/algorithm/graph/floyd_warshall.h:floyd_warshall"]}
{"id": "C93", "title": "Single-source shortest paths (Dijkstra)", "statement": "dijkstra(g, src, inf) with no negative weight takes every node from the queue at most once, ends, and returns for every node the least weight of a walk from src and its last node before v on such a walk; nodes for which every walk weighs at least inf keep { -1, inf }.", "quantifier": "every weighted directed graph with weights >= 0, every source, every inf > 0", "why_tests_cant": "Minimality is over infinitely many walks; that no node is taken twice depends on the order of the set in every history.", "anchors": ["experimental/include/altruct/algorithm/graph/dijkstra.h:dijkstra"]}
{"id": "C94", "title": "Minimum spanning tree (Prim)", "statement": "prim_spanning_tree(g, root, inf) returns the parent of every node, and the weight of the edge to it, in a minimum spanning tree of the component of the root.", "quantifier": "every undirected weighted graph with weights >= 0, every root", "why_tests_cant": "Being a tree and having the least weight among all spanning trees cannot be sampled.", "anchors": ["experimental/include/altruct/algorithm/graph/prim_spanning_tree.h:prim_spanning_tree"]}
{"id": "C95", "title": "Depth-first search with a visitor", "statement": "iterative_dfs(g, visitor, source) ends; for every way the visitor answers by (parent, node) there is one depth-first forest of g such that the visitor is called exactly for the events of that forest, in order: each candidate node with its root, parent and depth, and -1 as the last node of each entered parent. The forest contains exactly the nodes that can be reached over accepted edges from accepted roots, each once; for every edge between entered nodes the target is finished before the source or is an ancestor of it. parents(g) returns the parent of every node in such a forest.", "quantifier": "every directed graph, every visitor whose answer is a function of parent and node, every source or all nodes", "why_tests_cant": "The order of the calls and the reached set depend on the whole history of the explicit stack.", "anchors": ["experimental/include/altruct/algorithm/graph/iterative_dfs.h:iterative_dfs", "experimental/include/altruct/algorithm/graph/iterative_dfs.h:parents"]}
{"id": "C96", "title": "In-degrees and topological order", "statement": "in_degrees(g)[v] is the number of edges to v. topological_sort(g) of an acyclic graph lists every node exactly once, and for every edge the source comes before the target.", "quantifier": "every directed graph (in-degrees), every acyclic directed graph (order)", "why_tests_cant": "Acyclic graphs cannot be enumerated; that the nodes without incoming edges reach all nodes is a fact about every acyclic graph.", "anchors": ["experimental/include/altruct/algorithm/graph/topological_sort.h:in_degrees", "experimental/include/altruct/algorithm/graph/topological_sort.h:topological_sort"]}
{"id": "C97", "title": "Strongly connected components (Tarjan)", "statement": "tarjan_scc(g) ends and returns every node in exactly one component; two nodes are in the same component exactly when each can be reached from the other; no node can be reached from a node of a later component: the components are in topological order.", "quantifier": "every directed graph", "why_tests_cant": "Mutual reachability quantifies over all walks; the low numbers depend on the whole history of the search.", "anchors": ["experimental/include/altruct/algorithm/graph/tarjan_scc.h:tarjan_scc"]}
{"id": "C98", "title": "2-satisfiability", "statement": "sat2(sol, clauses) returns true exactly when some assignment that agrees with the given values satisfies every clause of at most two literals; then the given values are kept, every variable that occurs has a value and every assignment that agrees with the new sol satisfies all clauses. sat2(clauses) returns such values, or the empty vector if there are none.", "quantifier": "every list of clauses with literals >= -1, every vector of given values -1, 0 or 1", "why_tests_cant": "A claim of unsatisfiability speaks about all assignments, for all clause sets.", "anchors": ["experimental/include/altruct/algorithm/graph/sat2.h:sat2"]}
{"id": "C99", "title": "The lowest common ancestor structure answers depth, ancestor and distance for every pair of nodes", "statement": "After construction from any graph, depth(u) is the number of edges from u to the root of its tree in the depth-first forest, ancestor(u, v) is the lowest common ancestor of u and v in that forest or -1 if there is none, distance(u, v) is the number of edges between them through the ancestor or -1; a negative node gives -1. In an undirected graph the answer is -1 exactly for nodes of different components, otherwise there is a simple path from u to v with distance(u, v) edges through ancestor(u, v), which also lies on simple paths with depth(u) and depth(v) edges from the root; in a forest that path is the only one.", "quantifier": "every graph with fewer than 2^31-1 nodes, every pair of nodes", "why_tests_cant": "the structure is an Euler tour folded into a segment tree; every shape of forest and every pair of nodes gives another range of the tour", "anchors": ["experimental/include/altruct/algorithm/graph/lowest_common_ancestor.h:lowest_common_ancestor", "include/altruct/structure/container/segment_tree.h:segment_tree"]}
{"id": "C100", "title": "Dinic's algorithm ends and returns a maximum flow", "statement": "For every square matrix of non-negative integer capacities, none above infinity, and two different nodes, calc_max_flow terminates; the matrix flow is a flow from source to sink (within the capacities, conserved at the other nodes), its value is the returned number, no flow has a greater value, and the value is the capacity of a cut. For source equal to sink the result is 0.", "quantifier": "every matrix of capacities, every source and sink", "why_tests_cant": "optimality compares the result with all flows, and termination depends on every phase finding a path", "anchors": ["experimental/include/altruct/algorithm/graph/dinic_flow.h:dinic_flow", "experimental/include/altruct/algorithm/graph/dinic_flow.h:calc_max_flow"]}
{"id": "C101", "title": "bipartite_matching returns a maximum matching", "statement": "For distinct edges that lead from one set of nodes to a disjoint one, bipartite_matching returns a sublist of the edges in which no two share a node, and no such set of the given edges is larger.", "quantifier": "every bipartite graph given by distinct edges", "why_tests_cant": "maximality compares the result with all matchings", "anchors": ["experimental/include/altruct/algorithm/graph/bipartite_matching.h:bipartite_matching"]}
{"id": "C102", "title": "The Aho-Corasick trie counts every occurrence of every word", "statement": "After any non-empty words were inserted and build was called, each call of count_matches ends and returns the number of occurrences of all the words in its text, overlapping ones included and a word that was inserted twice counting twice, whatever texts were searched before. insert returns the same number for two words exactly if they are equal.", "quantifier": "every list of words, every sequence of texts", "why_tests_cant": "the trie remembers moves in the same table that holds its edges, so each answer depends on all earlier calls", "anchors": ["experimental/include/altruct/structure/container/aho_corasick_trie.h:insert", "experimental/include/altruct/structure/container/aho_corasick_trie.h:build", "experimental/include/altruct/structure/container/aho_corasick_trie.h:count_matches", "experimental/include/altruct/structure/container/aho_corasick_trie.h:move_next"]}
{"id": "C103", "title": "The palindrome tree holds every palindrome of the text once", "statement": "For every text the construction ends; total() is the number of substrings, by position, that are palindromes; distinct() is the number of different ones; longest_suffix() is the node of the longest palindromic suffix; and after propagate() the nodes are the different palindromes, each with its length, the position of its first occurrence and its number of occurrences.", "quantifier": "every text over the alphabet", "why_tests_cant": "the claim is about all substrings of all texts", "anchors": ["experimental/include/altruct/structure/container/palindrome_tree.h:palindrome_tree", "experimental/include/altruct/structure/container/palindrome_tree.h:add", "experimental/include/altruct/structure/container/palindrome_tree.h:propagate", "experimental/include/altruct/structure/container/palindrome_tree.h:total", "experimental/include/altruct/structure/container/palindrome_tree.h:distinct"]}
{"id": "C104", "title": "The prefix tree is a numbered set of words", "statement": "Whatever calls were made before, on words over the alphabet and numbers of present words: add, append and find return the number of the word (0 for a missing or the empty word), numbers are 1..num_words without gaps, get returns the word of a number, for_each visits exactly the words with the given prefix, each with its number, in lexicographic order, erase removes exactly the word and moves the last word to its number, num_letters is the number of different non-empty prefixes of the words; no freed or missing node is ever used.", "quantifier": "every alphabet size and every sequence of calls", "why_tests_cant": "nodes are created and freed by the history of calls; removal depends on what other words share a prefix", "anchors": ["experimental/include/altruct/structure/container/prefix_tree.h:add", "experimental/include/altruct/structure/container/prefix_tree.h:append", "experimental/include/altruct/structure/container/prefix_tree.h:find", "experimental/include/altruct/structure/container/prefix_tree.h:get", "experimental/include/altruct/structure/container/prefix_tree.h:for_each", "experimental/include/altruct/structure/container/prefix_tree.h:erase", "experimental/include/altruct/structure/container/prefix_tree.h:num_words", "experimental/include/altruct/structure/container/prefix_tree.h:num_letters"]}
{"id": "C105", "title": "The constant-time range minimum structure returns the leftmost minimum", "statement": "After build on any array, get_index(begin, end) returns, for every non-empty range inside the array, the first position in the range of a smallest element under the given strict weak ordering, and get_value its value; blocks that share a precomputed table do so only if all their range minima are at the same positions. size() returns the length rounded up to a multiple of the block size.", "quantifier": "every strict weak ordering, every array of fewer than 2^32 elements, every block size from 1 to 128, every range", "why_tests_cant": "the answer goes through a numbering of the shapes of blocks that must be injective, and through overlapping powers of two", "anchors": ["experimental/include/altruct/structure/container/range_minimum_query.h:build", "experimental/include/altruct/structure/container/range_minimum_query.h:get_index", "experimental/include/altruct/structure/container/range_minimum_query.h:get_value", "experimental/include/altruct/structure/container/range_minimum_query.h:build_block_trees", "experimental/include/altruct/structure/container/range_minimum_query.h:build_sparse_table", "experimental/include/altruct/structure/container/range_minimum_query.h:size"]}
{"id": "C106", "title": "The suffix array sorts all suffixes and answers prefix and comparison queries", "statement": "For every non-empty string of non-negative letters, whatever the memory after the copied string holds, the constructor ends, get_kth_suffix lists the start positions of all suffixes, the empty one included, in strictly increasing lexicographic order, get_suffix_order is its inverse, get_lcp(i, j) is the length of the longest common prefix of the suffixes at i and j, and compare_substrings returns the sign of the lexicographic comparison of two substrings. The element just past the copied string is read; without readable memory there, or on the empty string, behaviour is undefined.", "quantifier": "every non-empty string of fewer than 2^32 - 2 letters, every content of the memory after it, every pair of positions, every two ranges", "why_tests_cant": "induced sorting, the naming of substrings and the recursion on the reduced string work in shared buffers; the order must be right for every string, and the lcp array relies on an amortised lower bound", "anchors": ["experimental/include/altruct/structure/container/suffix_array.h:suffix_array", "experimental/include/altruct/structure/container/suffix_array.h:sa_is", "experimental/include/altruct/structure/container/suffix_array.h:build_lcp_array", "experimental/include/altruct/structure/container/suffix_array.h:get_lcp", "experimental/include/altruct/structure/container/suffix_array.h:compare_substrings", "experimental/include/altruct/structure/container/suffix_array.h:get_kth_suffix", "experimental/include/altruct/structure/container/suffix_array.h:get_suffix_order"]}
{"id": "C107", "title": "The Hungarian algorithm returns optimal assignments", "statement": "On every object, after resize(n) and setting all costs, calc_max_cost ends and returns the largest total cost over all assignments of n workers to n jobs, and calc_min_cost the smallest; get_matches_for_x and get_matches_for_y hold, in their first n elements, an assignment with that total and its inverse; the costs read afterwards are those set before. The match vectors have the length of the next power of two, and growing the object moves costs set earlier.", "quantifier": "every object built by the interface, every n, every matrix of integers", "why_tests_cant": "optimality is a statement about all n! assignments, and termination rests on an alternating tree that survives changes of the labels", "anchors": ["experimental/include/altruct/algorithm/graph/hungarian.h:resize", "experimental/include/altruct/algorithm/graph/hungarian.h:cost", "experimental/include/altruct/algorithm/graph/hungarian.h:calc_max_cost", "experimental/include/altruct/algorithm/graph/hungarian.h:calc_min_cost", "experimental/include/altruct/algorithm/graph/hungarian.h:get_matches_for_x", "experimental/include/altruct/algorithm/graph/hungarian.h:get_matches_for_y"]}
{"id": "C108", "title": "Push-relabel returns the maximum flow under both selection rules", "statement": "For every matrix of non-negative capacities, two different nodes and an infinity of at least the capacity out of the source, calc_max_flow ends under RELABEL_TO_FRONT and under LARGEST_LABEL, in whatever order the sort leaves equal heights; the positive entries of flow are a flow, flow is antisymmetric, the result is the value of that flow, no flow has a greater one, and some cut has exactly that capacity. From a node to itself the result is 0. With a smaller infinity the result can be too small, and with another value for the rule it is not a flow at all.", "quantifier": "every number of nodes up to half of INT_MAX, every matrix of non-negative integers, every pair of nodes, both rules, every behaviour of the sort", "why_tests_cant": "termination needs a bound on the heights of all reachable states, and maximality is a statement about all flows; the order of equal heights is up to the library", "anchors": ["experimental/include/altruct/algorithm/graph/push_relabel_flow.h:calc_max_flow", "experimental/include/altruct/algorithm/graph/push_relabel_flow.h:push", "experimental/include/altruct/algorithm/graph/push_relabel_flow.h:relabel", "experimental/include/altruct/algorithm/graph/push_relabel_flow.h:discharge"]}
{"id": "C109", "title": "chain_decomposition and cut_edges report exactly the bridges", "statement": "On every undirected graph chain_decomposition ends without an access out of bounds, and cut_edges applied to its result lists every bridge (an edge whose removal disconnects its ends) exactly once, with its smaller end first, and no other edge; the chains run along edges that are not bridges, cover all of those, and the first chain of every group is a cycle. Parallel edges count as one.", "quantifier": "all graphs given by adjacency lists in which every edge has its reverse, connected or not, with loops or parallel edges", "why_tests_cant": "the algorithm depends on the depth-first order and on which chain reaches which node first; tests fix a few graphs and one order of the adjacency lists", "anchors": ["experimental/include/altruct/algorithm/graph/chain_decomposition.h:chain_decomposition", "experimental/include/altruct/algorithm/graph/chain_decomposition.h:cut_edges"]}
{"id": "C110", "title": "cut_vertices reports exactly the articulation points", "statement": "On every simple undirected graph cut_vertices, given the chain decomposition and any list of the bridges, returns in increasing order exactly the nodes whose removal disconnects two other nodes.", "quantifier": "all simple undirected graphs given by adjacency lists, connected or not, and all lists of their bridges", "why_tests_cant": "roots of the depth-first forest, nodes between blocks and ends of bridges are decided by different parts of the code, and the interplay depends on the order of the adjacency lists", "anchors": ["experimental/include/altruct/algorithm/graph/chain_decomposition.h:cut_vertices", "experimental/include/altruct/algorithm/graph/chain_decomposition.h:biconnectivity"]}
{"id": "C111", "title": "The Mertens sieves and functions give the sums of the Moebius function", "statement": "For every n from 2 and every table of n elements starting with zero, sieve_mertens, sieve_mertens_odd and sieve_mertens_even_odd store at every index i < n the sum of the Moebius function over all, the odd and the even k up to i, and change nothing else; so does sieve_mertens_even, which leaves the first element alone. For every n, mertens and mertens_odd, and mertens_even for n < 2^31, return these sums when the table passed in holds only correct values, keep all of these values and store only correct ones.", "quantifier": "all n, all tables with correct or no known values, all coefficient rings", "why_tests_cant": "the recursion reads the values at all n/k through a memo table with arbitrary known values; correctness rests on identities of the Moebius function over all divisors", "anchors": ["include/altruct/algorithm/math/mertens.h:sieve_mertens", "include/altruct/algorithm/math/mertens.h:sieve_mertens_odd", "include/altruct/algorithm/math/mertens.h:sieve_mertens_even", "include/altruct/algorithm/math/mertens.h:sieve_mertens_even_odd", "include/altruct/algorithm/math/mertens.h:mertens", "include/altruct/algorithm/math/mertens.h:mertens_odd", "include/altruct/algorithm/math/mertens.h:mertens_even"]}
{"id": "C112", "title": "sum_multiplicative_34 sums every multiplicative function", "statement": "For every n >= 1, every multiplicative function given on prime powers by f, its sums s1 over the primes, and every table of primes in increasing order that contains the primes up to the square root of n, sum_multiplicative_34 terminates without an access out of bounds or to a value that is not in the map, and returns the sum of the function over 1..n.", "quantifier": "all n, all multiplicative functions with values in any commutative ring, all tables of primes", "why_tests_cant": "the recursion visits classes of numbers by the two largest prime factors; that every number up to n is counted exactly once is a statement about all factorizations", "anchors": ["include/altruct/algorithm/math/divisor_sums.h:sum_multiplicative_34", "include/altruct/algorithm/math/divisor_sums.h:make_sqrt_map"]}
{"id": "C113", "title": "sum_multiplicative returns all partial sums of every multiplicative function", "statement": "For every n from 9, every multiplicative function given on prime powers by f, its sums s1 over the primes, and every table of all primes up to a bound between the square root of n and n / icbrt(n), sum_multiplicative terminates without an access out of bounds, and the map it returns holds the sum of the function over 1..k for every k up to the square root and every quotient k = n / j. traverse_rough_numbers visits the numbers up to n with smallest prime factor p_k, with the value of the function.", "quantifier": "all n, all multiplicative functions with values in any commutative ring, all tables of primes, all visitors", "why_tests_cant": "four steps with different methods meet at n^(1/6), n^(1/3), n^(1/2) and n^(2/3); whether every boundary is on the right side for every n is a statement about all n", "anchors": ["include/altruct/algorithm/math/divisor_sums.h:sum_multiplicative", "include/altruct/algorithm/math/divisor_sums.h:traverse_rough_numbers", "include/altruct/algorithm/math/divisor_sums.h:calc_F_k"]}
{"id": "C114", "title": "prime_pi_deprecated counts primes whatever its static tables hold from earlier calls", "statement": "For every m below 2^47, every table of primes and of prime counts that reaches far enough, and every history of earlier calls (which fill the static tables), prime_pi_deprecated terminates without an access out of bounds or an overflow of its table keys and returns the number of primes up to m.", "quantifier": "all m < 2^47, all sufficient tables, all sequences of calls", "why_tests_cant": "the memo key packs two numbers into one; that no history of calls makes two of them collide is a statement about all histories", "anchors": ["include/altruct/algorithm/math/prime_pi.h:prime_pi_deprecated", "include/altruct/algorithm/math/prime_pi.h:prime_pi_PHI", "include/altruct/algorithm/math/prime_pi.h:prime_pi_P2", "include/altruct/algorithm/math/prime_pi.h:prime_pi_PHI_key"]}
{"id": "C115", "title": "sum_phi fills its map with the summatory totient at every quotient", "statement": "For n >= 1, sum_phi(n) returns a map in which every key n / k, 1 <= k <= n, is present and holds phi(1) + ... + phi(n / k), whether the small values come from a caller's table of phi or are sieved; n = 0 divides by zero.", "quantifier": "all n, all rings in which division by 2 undoes multiplication by 2, all integer roots meeting their contract, with and without a table", "why_tests_cant": "the table is filled through a recursion whose keys must all be quotients of n, and a wrong slot shows only for some n", "anchors": ["include/altruct/algorithm/math/divisor_sums.h:sum_phi", "include/altruct/algorithm/math/divisor_sums.h:sum_m", "include/altruct/structure/container/sqrt_map.h:sqrt_map"]}
{"id": "C116", "title": "sum_phi_D_L sums powers times generalised totients", "statement": "sum_phi_D_L(D, L, vn, U) returns, for every n in vn in order, the sum over k <= n of k^L times the number of choices a_1 <= ... <= a_D <= k with gcd(a_1, ..., a_D, k) = 1, for every sieving bound U; sum_g_L does so for any polynomial g and the function whose divisor sums are g; an empty vn reads past the end.", "quantifier": "all D, L, all non-empty lists of arguments, all sieving bounds, all fields in which 1, ..., L + D + 1 are not zero", "why_tests_cant": "dimension, exponent, bound and list are unbounded, and one map is reused for all arguments", "anchors": ["include/altruct/algorithm/math/divisor_sums.h:sum_g_L", "include/altruct/algorithm/math/divisor_sums.h:sum_phi_D_L", "include/altruct/algorithm/math/polynoms.h:polynom_sum"]}
{"id": "C117", "title": "monotonic_search ends near a solution", "statement": "On an interval [b, e] where the function is monotonic (either way) and takes the value y, monotonic_search returns a point of the interval that is within max(epsx, (e - b) / 2^max_iter) of a solution of p(x) = y, unless it stopped at a point where |p(x)| <= epsy. For y = 0 the second case is the documented tolerance; for other y it is not, and the search stops at any zero of p it meets (finding). Exact arithmetic is assumed.", "quantifier": "all ordered fields, functions, intervals, target values, tolerances and iteration limits", "why_tests_cant": "a bound on the distance for every monotonic function and every number of bisection steps; tests look at a few polynomials", "anchors": ["include/altruct/algorithm/math/polynoms.h:monotonic_search"]}
{"id": "C118", "title": "find_zeros returns zeros in order, and all of them when its searches are exact", "statement": "find_zeros returns a non-decreasing list of at most max(deg, 1) + 1 numbers of [-inf, inf] at each of which |p| <= epsz, for any tolerances. If every search of a monotonic piece finds a zero when there is one, the list contains every real zero of a non-zero polynomial in [-inf, inf].", "quantifier": "all polynomials of any degree, bounds and tolerances", "why_tests_cant": "completeness rests on monotonicity between the zeros of all the derivatives, for every degree", "anchors": ["include/altruct/algorithm/math/polynoms.h:find_zeros", "include/altruct/algorithm/math/polynoms.h:monotonic_search"]}
{"id": "C119", "title": "heavy_light_decomposition lays out subtrees and chains", "statement": "For every undirected forest the constructor of heavy_light_decomposition only reorders the adjacency lists. position and node are inverse numberings of the nodes by 0..n-1; the subtree of u (the forest rooted at the least node of each tree) is the range of subtree_size(u) positions from position(u); the nodes from u up to the top of its chain take consecutive positions down from position(u); parent(u) is the parent of the top node, or -1; the subtree of u has less than half of the nodes of the subtree of parent(u), so at most log2(n) calls of parent in a row lead to a root. For edges with further members the swap moves only the target (finding).", "quantifier": "all undirected forests, of any size and shape, with any order of the adjacency lists", "why_tests_cant": "the halving argument and the contiguity of every subtree and chain concern all trees; tests try a few small ones", "anchors": ["experimental/include/altruct/algorithm/graph/heavy_light_decomposition.h:heavy_light_decomposition"]}
{"id": "C120", "title": "heavy_light_decomposition_ex: k-th ancestor and path segments", "statement": "parent(u, k) is the node k steps above u, or -1 when there is none or k is negative. For u and v in one tree, the segments that walk_nodes passes to the visitor cover the positions of the nodes of the path from u to v, each exactly once and paired with its index on the path (reversed when the direction flag is set); walk_edges covers the lower nodes of the path's edges in the same way. The result and the path_length argument are the number of nodes or edges. parent takes at most log2(n) + 1 rounds and walk makes at most 2 log2(n) + 3 calls. For nodes of different trees walk_nodes reads positions[-1] (finding).", "quantifier": "all undirected forests with fewer than 2^31 - 1 nodes, all pairs of nodes in one tree, all k", "why_tests_cant": "exact cover of the path by segments, with indices, for every tree and every pair; tests check a few trees", "anchors": ["experimental/include/altruct/algorithm/graph/heavy_light_decomposition.h:heavy_light_decomposition_ex"]}
{"id": "C121", "title": "Multiplication of polynomials with modulo coefficients is the product", "statement": "For every modulus M below 2^32 and polynomials with l1 + l2 < 2^28, multiplying polynom<modulo> gives the coefficients of the product up to the requested length and changes nothing after it, whether the operands alias the result or not and whichever method is chosen (schoolbook, Karatsuba, complex FFT, two-prime FFT with Chinese remainders). The two-prime method is right without any assumption; the complex FFT methods (two 16-bit blocks, or three 10-11-11-bit blocks) are right if the arithmetic on complex numbers is exact, and none of their 64-bit integer operations overflows.", "quantifier": "every modulus 0 < M < 2^32, all coefficients, all degrees with l1 + l2 < 2^28, every truncation, every aliasing, every outcome of the cost comparison, every size of the cached table of roots", "why_tests_cant": "Lengths above 100000 and moduli near 2^32 are needed to reach the largest intermediate values; a carry lost in the combination of the two residues shows only for particular sums.", "anchors": ["include/altruct/algorithm/math/polynom_mod.h:polynom_mul<modulo>::impl", "include/altruct/algorithm/math/polynom_mod.h:_mul_fft_crt", "include/altruct/algorithm/math/polynom_mod.h:_mul_fft", "include/altruct/algorithm/math/polynom_mod.h:_mul_fft_big", "include/altruct/algorithm/math/polynom_mod.h:polynom_mul_mod_P_hilo", "include/altruct/structure/math/polynom.h:polynom::_mul"]}
{"id": "C122", "title": "Arithmetic and comparison of double_int are those of integers modulo a power of two", "statement": "For double_int nested to any depth over words of w bits: every number below 2^bits has exactly one representation; construction from an int fitting a word and from the half type keeps the signed number; +, -, unary -, prefix ++ and --, and * are the operations modulo 2^bits, and give the signed result whenever it is in range; addition with carry and subtraction with borrow are exact with their carry; the product in double width is exact; ==, the four signed and the four unsigned comparisons and is_negative compare the numbers. Division and remainder, in contrast, give 0 for all operands, and postfix increment leaves the object unchanged.", "quantifier": "every depth of nesting, every word width of at least 3 bits, all operands", "why_tests_cant": "2^(2 bits) pairs of operands; a lost carry or borrow in the Karatsuba step shows only for particular operands.", "anchors": ["experimental/include/altruct/structure/math/double_int.h:double_int::unsigned_mul_full", "experimental/include/altruct/structure/math/double_int.h:double_int::unsigned_mul", "experimental/include/altruct/structure/math/double_int.h:double_int::assign_adc", "experimental/include/altruct/structure/math/double_int.h:double_int::assign_sbb", "experimental/include/altruct/structure/math/double_int.h:double_int::operator <", "experimental/include/altruct/structure/math/double_int.h:double_int::signed_div"]}
{"id": "C123", "title": "Bit operations and conversions of double_int", "statement": "For double_int nested to any depth: &, |, ^, ~ act on the bits of the number, leading_zeros_count is the number of leading zeros, to_uint64 is the number modulo 2^64 and to_string16 writes it with bits/4 hexadecimal digits. For a double_int of two words, the unsigned right shift is the quotient by the power of two and >> the floor of the quotient of the signed number, for every count, also above the width; counts that are not positive change nothing.", "quantifier": "every depth of nesting, every word width, all operands, all shift counts", "why_tests_cant": "Shift counts at, around and above the word size are separate cases, and each must be right for all bit patterns.", "anchors": ["experimental/include/altruct/structure/math/double_int.h:double_int::assign_extended_shr", "experimental/include/altruct/structure/math/double_int.h:double_int::leading_zeros_count", "experimental/include/altruct/structure/math/double_int.h:double_int::to_uint64", "experimental/include/altruct/structure/math/double_int.h:double_int::to_string16"]}
{"id": "C124", "title": "The factorial table object gives factorials, their inverses, inverses and binomials", "statement": "A factorial_holder of size sz >= 1 over a field in which (sz-1)! is not zero returns, for k < sz, k! from fact(k), 1/k! from ifact(k), 1/k (0 for 0) from inv(k), throws for k >= sz, and returns the binomial coefficient from bin(n, k) for every n < sz and every k, also for k > n. A holder of size 0, or one longer than the characteristic allows, is a misuse that reads outside the table or divides by zero.", "quantifier": "every field, every size and every argument", "why_tests_cant": "A test fixes one modulus and a few arguments; the claim is about every size up to the characteristic.", "anchors": ["include/altruct/structure/math/factorial_holder.h:factorial_holder", "include/altruct/algorithm/math/ranges.h:make_factorials", "include/altruct/algorithm/math/ranges.h:make_inv_factorials"]}
{"id": "C125", "title": "The lazily computed prime tables are right in every order of use", "statement": "On one prime_holder of size sz, every sequence of calls of size, primes, p, q, pf, pi, phi, mu, nu, mertens, factor_integer and divisors, with arguments below sz, returns at each call the right table or number, whatever was called before: the primes, the prime flags, the largest prime factors, pi, Euler's phi, the Moebius function, the number of prime factors, the Mertens sums, the sorted factorisation of a number or product, and its sorted divisors.", "quantifier": "every size, every sequence of calls (which table is computed first, which are cached) and every argument in range", "why_tests_cant": "The caches make the result depend on the history of calls; a test runs one history. The room for the primes is an analytic estimate for which no test at one size is evidence at another.", "anchors": ["include/altruct/structure/math/prime_holder.h:prime_holder", "include/altruct/structure/math/prime_holder.h:ensure_pq", "include/altruct/structure/math/prime_holder.h:ensure", "include/altruct/structure/math/prime_holder.h:factor_integer", "include/altruct/structure/math/prime_holder.h:divisors"]}
{"id": "C126", "title": "The table of roots of unity serves every history of requests", "statement": "After every sequence of calls of complex_root_wrapper, a call with l returns a wrapper of a power of two of roots, no fewer than l and than any earlier request, that reads the principal root of that order; its powers and products read the powers and products of that root, also after any later calls that ask for no more roots than it has, and a convolution through it is exact in exact arithmetic. A wrapper obtained before a call for more roots must not be used any more, nor may one obtained by a first call for a single root be read.", "quantifier": "every sequence of calls, every index, every later call within the bound, every pair of sequences convolved", "why_tests_cant": "The table is a static variable shared by all callers: what a wrapper reads depends on the calls other code has made since; a test runs one history.", "anchors": ["include/altruct/structure/math/root_wrapper.h:root_wrapper", "include/altruct/structure/math/root_wrapper.h:complex_root_wrapper"]}
{"id": "C127", "title": "Delimited tokens are read back as they were written", "statement": "Reading a tokens_delimited from a stream returns exactly the items of the text, in order, whenever the text is items separated by one or more delimiters and white space, perhaps ending with delimiters, where an item is not empty, has no delimiter and does not begin with white space; in particular joining items with a delimiter and reading them returns them. On every text reading terminates, its tokens are free of delimiters and together keep every character that is neither delimiter nor white space, in order; likewise for tokens_allowed.", "quantifier": "every set of delimiters, every notion of white space, every text", "why_tests_cant": "The result depends on the interplay of end-of-file, unget and white-space skipping at every position of the text; tests cover a few texts.", "anchors": ["include/altruct/io/stream_tokenizer.h:tokens", "include/altruct/io/stream_tokenizer.h:token", "include/altruct/io/stream_tokenizer.h:tokens_delimited", "include/altruct/io/stream_tokenizer.h:tokens_allowed", "include/altruct/io/stream_tokenizer.h:unbox_tokens"]}
{"id": "C128", "title": "The string of a symbolic value determines the computation", "statement": "Two computations with symbolic values over names and numbers (without operator characters, but for a leading minus) yield the same string if and only if they apply the same operators to the same operands in the same order; a compound assignment counts as its operator. The strings of integers, of the identity and of zero are such numbers.", "quantifier": "every pair of expressions of any depth over the sixteen operators", "why_tests_cant": "There are infinitely many expressions and the operators share characters (-, & and &&, | and ||); tests compare a few strings.", "anchors": ["include/altruct/structure/math/symbolic.h:symbolic"]}
{"id": "C129", "title": "The Mersenne twister produces the published sequence for ever", "statement": "A generator seeded with one word, or with any non-empty array of words, produces for ever the sequence of Matsumoto and Nishimura: the words it tempers follow the recurrence x[k+624] = x[k+397] xor (top bit of x[k], low bits of x[k+1]) A from the words made of the seed. No seed leads to a generator that gets stuck at zero, and 624 numbers in a row determine all further ones. An empty array is read out of bounds.", "quantifier": "every seed word, every array of seed words whose length fits in an int, every number of draws", "why_tests_cant": "The state has 19937 bits and is rewritten in place every 624 draws; tests compare the first few numbers of a few seeds.", "anchors": ["include/altruct/algorithm/random/mersenne_twister.h:mtrand::seed", "include/altruct/algorithm/random/mersenne_twister.h:mtrand::randInt", "include/altruct/algorithm/random/mersenne_twister.h:mtrand::reload"]}
{"id": "C130", "title": "Bounded numbers, reals and saved states of the Mersenne twister", "statement": "However a generator has been seeded, used and restored, a draw never fails; randInt(n) returns the first number drawn whose low bits, as many as n has, are not above n, so that every value of [0, n] comes from the same number of words; randExc is in [0, 1), randDblExc in (0, 1) and rand53 is one of the 2^53 multiples of 2^-53 in [0, 1) with 27 bits of the first draw and 26 of the second; loading a saved state restores the generator exactly.", "quantifier": "every reachable state of the generator, every bound n, every number of rejected draws", "why_tests_cant": "The position in the state at the time of a save and the number of rejected draws are unbounded histories.", "anchors": ["include/altruct/algorithm/random/mersenne_twister.h:mtrand::randInt", "include/altruct/algorithm/random/mersenne_twister.h:mtrand::rand53", "include/altruct/algorithm/random/mersenne_twister.h:mtrand::save", "include/altruct/algorithm/random/mersenne_twister.h:mtrand::load"]}
{"id": "C131", "title": "biconnected_components lists exactly the blocks of a graph", "statement": "On every undirected graph biconnected_components, given the result of chain_decomposition, ends without an access out of bounds and returns lists of nodes without repetitions, each of at least three nodes, such that two different nodes are in a common list exactly when they are not the ends of a bridge and no single other node separates them; two lists have at most one node in common, and three nodes any two of which are in a common list are in one list together. In particular the ends of an edge are in a common list exactly when the edge is not a bridge.", "quantifier": "all undirected graphs given by adjacency lists, connected or not, with or without loops and repeated edges", "why_tests_cant": "Which chain goes to which group depends on the shape of the whole depth-first forest, and one mark array is shared by all groups with only the mark of the first node taken back; tests look at a few small graphs.", "anchors": ["experimental/include/altruct/algorithm/graph/chain_decomposition.h:biconnected_components", "experimental/include/altruct/algorithm/graph/chain_decomposition.h:chain_decomposition"]}
{"id": "C132", "title": "block_cut_tree builds a forest of the blocks and articulation points", "statement": "On every simple undirected graph, given the results of chain_decomposition, cut_vertices and biconnected_components and any list of the bridges, block_cut_tree ends without an access out of bounds and returns a graph and a map from the nodes to it such that the graph is a forest (every edge of it is a bridge of it, and no edge is there twice when no bridge is listed twice); two nodes are connected in the graph exactly when their images are connected in the forest; the first nodes of the forest are the blocks, then there is one for each articulation point, and different nodes have the same image only when they are in a common block; the edges are exactly those between a block and an articulation point in it and those for the bridges. The constructor of biconnectivity ends and its fields have these properties.", "quantifier": "all simple undirected graphs given by adjacency lists, connected or not, and all lists of their bridges", "why_tests_cant": "That the result has no cycle is a statement about all ways through the graph, and the map is overwritten by three loops one after the other; tests look at a few small graphs.", "anchors": ["experimental/include/altruct/algorithm/graph/chain_decomposition.h:block_cut_tree", "experimental/include/altruct/algorithm/graph/chain_decomposition.h:biconnectivity", "include/altruct/structure/graph/graph.h:add_edge2"]}
{"id": "C133", "title": "The closed forms of chromatic polynomials count proper colourings", "statement": "For every tree with n nodes the polynomial chromatic_polynomial_T(n), for the cycle of n >= 2 nodes the polynomial chromatic_polynomial_C(n), and for the complete graph with n nodes the polynomial chromatic_polynomial_K(n), evaluated at any number q of colours, is the number of ways to colour the nodes with q colours such that the ends of every edge have different colours.", "quantifier": "all trees, all cycles of at least two nodes, all complete graphs, all numbers of colours", "why_tests_cant": "The value must be right for every tree on n nodes and for infinitely many n and q; tests compare the coefficients for a few n.", "anchors": ["experimental/include/altruct/algorithm/graph/chromatic_polynomial.h:chromatic_polynomial_T", "experimental/include/altruct/algorithm/graph/chromatic_polynomial.h:chromatic_polynomial_C", "experimental/include/altruct/algorithm/graph/chromatic_polynomial.h:chromatic_polynomial_K", "include/altruct/algorithm/math/base.h:powT"]}
{"id": "C134", "title": "What is printed for nested containers determines the value", "statement": "Writing a container to a stream appends its elements in order with a comma and a space between them, in braces. For every type built from vectors, sets, maps, pairs and triples, nested in any way over elements whose own text is not empty, has no comma or brace and differs for different elements (such as numbers in decimal notation), two values are printed alike only if they are equal. Fractions printed with a slash and residues printed with their modulus are such elements. Strings with commas are not.", "quantifier": "all types nested to any depth, all containers of any length, all element texts without commas and braces", "why_tests_cant": "Two different values with the same text are found by a test only if the pair is tried; the claim is about all pairs of values of all nested types.", "anchors": ["include/altruct/io/iostream_overloads.h:output_container", "include/altruct/io/iostream_overloads.h:operator <<"]}
