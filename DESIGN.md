# A Lean 4 model of plamenko/altruct

This directory contains a machine-checked model of the C++ library in `/repo`
and proofs of the properties listed in `properties.jsonl`.

## Trusted base

* **Lean's kernel** (Lean 4.33.0). Every theorem is checked by it; nothing uses
  `native_decide`, `bv_decide`, `sorry`, `admit`, `implemented_by` or own axioms.
* **Axioms**: at most `propext`, `Classical.choice`, `Quot.sound` (Lean's
  standard axioms, which Mathlib uses throughout). `AXIOMS.md` lists the axioms
  of every theorem named in `MANIFEST.json`, as printed by `#print axioms`.
* **Mathlib** is used as a library of proved facts only.
* **The reading of the code.** The C++ is not run or parsed here. Every
  definition of the model carries a comment naming the file and lines it
  models and what was simplified. The link between model and code is that
  comment plus review.

## Modelling conventions

* One Lean function per C++ function or member function; loops become
  recursive functions with the same loop state, in the same order of updates.
* Mutable containers (`std::vector`, raw arrays) become lists or functions
  returned by the function that mutates them. Where a memory access could be
  out of bounds, or another undefined behaviour can occur (division by zero,
  too large a shift, signed overflow where it is modelled), the model returns
  `Option` and `none` *is* that undefined behaviour; the theorems then prove
  that the result is `some …`.
* Pointer structures (search trees, treaps, ropes, link-cut trees) are heaps
  with explicit addresses; the theorems relate the heap to the abstract value.
* Integers are mathematical `Int`/`Nat` unless the property is about overflow;
  then they are `BitVec w`, `Nat` with explicit `% 2^w`, or checked `Int`.
* Template parameters (comparators, monoid operations, random generators,
  allocators) become parameters of the Lean definitions; what the C++
  documentation demands of them (associativity, strict weak order, …) becomes a
  hypothesis.
* Floating point is not modelled: coefficients are exact ring or field
  elements. Where the library converts through `double` (e.g. `isqrt`, the
  choice between two division algorithms), the floating point result is an
  arbitrary value, so the theorems hold whatever it is.
* Termination is part of every statement: either the recursion measure is a
  termination proof, or a fuel parameter is used which returns `none` when it
  runs out, and the theorem shows that the fuel given is enough.
* State that outlives a call (static tables, caches) is an explicit argument
  and result, and the theorems quantify over the histories of calls.

## Files

`lean/Verif/<Topic>/Model.lean` – the model (cites the code).
`lean/Verif/<Topic>/Spec.lean` – small independent specification (when the
statement does not already use Mathlib notions only).
`lean/Verif/<Topic>/Props.lean` and other files of the directory – lemmas and the
property theorems `Cnn_…` and, beside each, `example`s showing that the
hypotheses are met by a non-trivial case.
`seeded/LOG.jsonl` – wrong programs the theorems were tested against.

## Properties

The exact theorem names are in `MANIFEST.json`; all of them start with the id of the property.

| id | property | model | proof method | status |
|----|----|----|----|----|
| C01 | Generic integer square root is the exact floor | `Base`: `sqrtT` Newton loop, `isqrt` correction loops with an arbitrary seed | invariant q > floor sqrt, AM-GM; measure | partial, 7 theorems |
| C02 | Generic integer cube root is the exact floor | `cbrtT` loop, `icbrt` | same with the cubic Newton step | partial, 6 theorems |
| C03 | gcd, extended gcd and lcm | `gcd`, `gcd_ex`, `lcm` over `Int` with C++ truncated `/`, `%` | induction on the Euclid recursion | proved, 9 theorems |
| C04 | Exponentiation by squaring | `powT` loop over an arbitrary monoid | loop invariant r * x^n | proved, 2 theorems |
| C05 | Rounding integer division | `div_floor`, `div_ceil`, `div_round`, `multiple` with truncated division | case analysis, `Int.tdiv` lemmas | proved, 4 theorems |
| C06 | Modular addition, subtraction, negation and multiplication never overflow on unsigned words | word-level `modulo_add/sub/neg/mul` on `BitVec w` | wrap-around case analysis, double-and-add invariant | proved, 10 theorems |
| C07 | Modular inverse and modular division | `modulo_inv`, `modulo_gcd_ex`, `modulo_div` on Int and on wrapped words | continuant invariant, size bounds | proved, 6 theorems |
| C08 | modulo<> is the ring Z/M | `modulo` class | homomorphism into `ZMod M` | proved, 3 theorems |
| C09 | Chinese remainder combination | `chinese_remainder` | Bezout + solvability criterion; unsigned instance refuted | partial, 3 theorems |
| C10 | Jacobi symbol | `jacobi` | Mathlib `jacobiSym` reciprocity, induction | proved, 3 theorems |
| C11 | Prime sieve | `primes` sieve on explicit arrays with bounds | sieve invariant | proved, 4 theorems |
| C12 | Multiplicative-function tables built from a sieve | `prime_pi`, `euler_phi`, `moebius_mu`, `prime_nu`, `factor` | table invariants | proved, 15 theorems |
| C13 | Integer factorisation from a factor table and by trial division | `factor_integer` (table), `factor_integer_slow`, `from_factorization` | loop invariants | proved, 9 theorems |
| C14 | Divisor enumeration and arithmetic functions from a factorisation | `divisors` recursion with pruning | induction over the factor list | proved, 9 theorems |
| C15 | Knuth-Morris-Pratt search | `kmp_search` | border invariant | proved, 3 theorems |
| C16 | Binary search with a predicate | `binary_search_pred` | interval invariant | proved, 6 theorems |
| C17 | Disjoint sets | `disjoint_set` with path compression | refinement to the generated equivalence relation | proved, 2 theorems |
| C18 | Fenwick tree prefix sums | `fenwick_tree` | low-bit interval invariant | proved, 1 theorems |
| C19 | Binary heap | `binary_heap` | heap invariant + multiset preservation over histories | proved, 3 theorems |
| C20 | Segment tree range queries | `segment_tree` | node invariant; fold over ranges, non-commutative | proved, 2 theorems |
| C21 | Lazy segment tree range updates | `lazy_segment_tree` | abstraction map applying pending updates | proved, 2 theorems |
| C22 | bit_vector behaves as a sequence of bits | `bit_vector` on words | refinement to `List Bool` | partial, 26 theorems |
| C23 | Word-level bit tricks | `bits.h` on `BitVec w` | testBit extensionality; table checks by kernel `decide` where the domain is a finite table | proved, 20 theorems |
| C24 | Binary search tree as an ordered collection | `BST`: pointer heap with sentinel, parent links, subtree sizes | refinement to a sorted list over every history; three duplicate modes | proved, 11 theorems |
| C25 | Treap contents do not depend on the random priorities | `Treap` on top of the heap of C24 | rotation lemmas; same list specification for arbitrary priorities; heap order of priorities | proved, 12 theorems |
| C26 | Rope behaves as a sequence | `rope` | refinement to `List` | proved, 5 theorems |
| C27 | lohi_map and sqrt_map are maps | `Maps` | history refinement to partial maps | proved, 4 theorems |
| C28 | Infix expressions are parsed with the declared precedence and associativity | `Parser` | stack invariant against expression trees; existence and uniqueness of the tree | proved, 5 theorems |
| C29 | Buffered output is transparent | `buffered_writer` | history refinement | proved, 3 theorems |
| C30 | Buffered input is transparent | `buffered_reader` | history refinement | proved, 5 theorems |
| C31 | Integer text round trip | integer formatting / parsing | digit induction | proved, 5 theorems |
| C32 | Polynomial rolling hash is position independent | `polynomial_hash`, `cumulative_hash` | algebra in `ZMod M` | proved, 12 theorems |
| C33 | parallel_execute runs every job exactly once under every schedule | `Concurrency`: transition system, provider and collector calls split into read and write | invariants over every interleaving, termination measure, deadlock freedom | proved, 6 theorems |
| C34 | Run-length encoding and lexicographic comparison | `run_length`, `compare` | list induction | proved, 5 theorems |
| C35 | Minimal excluded value | `reduce_mex` | list induction; duplicates refuted | proved, 6 theorems |
| C36 | Fractions are kept canonical and form the field of rationals | `fraction` | refinement to `ℚ` | proved, 7 theorems |
| C37 | Polynomial multiplication | `_mul_long`, `_mul_karatsuba`, `_mul` | convolution coefficients, strong induction | proved, 12 theorems |
| C38 | Polynomial division with remainder | `quot_rem_long`, `div`, `mod` | long-division invariant | proved, 10 theorems |
| C39 | Gaussian elimination: inverse and determinant | `gauss` | row-operation invariant; rank refuted for singular matrices | proved, 7 theorems |
| C40 | Permutation notation conversions and group operations | `permutation` | orbit/cycle lemmas | proved, 18 theorems |
| C41 | Fast convolutions equal the naive ones | `convolutions.h` | induction on log n | proved, 9 theorems |
| C42 | Fast Fourier transform | `fft_rec`, cyclic convolution | induction on log n, root-of-unity sums | proved, 7 theorems |
| C43 | Fast sums over quotients and floors | `sum_ratio`, `sum_sqrt*` | lattice-point identity, quotient grouping | proved, 7 theorems |
| C44 | n-th permutation and combinatorial successors | `nth_permutation`, successors | factorial number system | proved, 8 theorems |
| C45 | Continued fractions and convergents | `Convergents`: `continued_fraction`, `convergents` | matrix invariant | proved, 6 theorems |
| C46 | bounded_contiguous_allocator never hands out a live slot | bounded allocator | free-list invariant over histories | proved, 2 theorems |
| C47 | Link-cut tree answers forest queries | `LinkCut`: pointer heap, splay trees, preferred paths, the real code of every member function | abstraction to rooted forests, history refinement | proved, 4 theorems |
| C48 | Graph edits | `graph` edits | list/multiset lemmas | proved, 5 theorems |
| C49 | Linear recurrences by polynomial exponentiation | `Recurrence`: `linear_recurrence` | arithmetic in `R[x]/(p)` | proved, 12 theorems |
| C50 | Miller-Rabin never rejects a prime; general factorisation is a factorisation | `miller_rabin`, `factor_integer` | Fermat / square roots of one in a field | proved, 9 theorems |
| C51 | Radix and repeating-decimal digits | digits, repeating decimals | division invariants | proved, 11 theorems |
| C52 | Dirichlet convolution, division and inverse tables | `Dirichlet` | in-place update invariants; ArithmeticFunction-style convolution specification | proved, 19 theorems |
| C53 | Rational approximation of square roots | `Convergents`: `sqrt_convergent` | quadratic-irrational invariant; Mathlib `Real.convergent` | proved, 3 theorems |
| C54 | Berlekamp-Massey finds the minimal recurrence | `Recurrence`: `berlekamp_massey` | Euclidean invariant, degree bounds, coprimality | proved, 3 theorems |
| C55 | Bernoulli numbers | `Recurrence`: `bernoulli_b` | loop invariant against the defining recurrence; Mathlib `bernoulli` | proved, 2 theorems |
| C56 | Farey neighbours enumerate the Farey sequence | `Digits`/`fractions.h`: `farey_neighbour` | Bezout invariant, neighbour minimality | proved, 5 theorems |
| C57 | sum_m inverts t(n) = Sum[p(k) M(n/k)] | `Dirichlet`: `sum_m` | quotient grouping, strong induction | proved, 2 theorems |
| C58 | Square-free counts | `Dirichlet`: `sqfree_count` | Moebius identities, quotient grouping | proved, 2 theorems |
| C59 | Sums over coprime numbers and divisor sigma | `Dirichlet`: `coprime_sum`, `divisor_sigma` | Moebius inversion; multiplicativity | proved, 2 theorems |
| C60 | Truncated power series | `Series` on `Polynom` | congruence modulo x^N in Mathlib `PowerSeries`; Newton iteration doubles the precision | proved, 34 theorems |
| C61 | Range transforms | `Ranges` | list induction | proved, 16 theorems |
| C62 | Multiplicative orders, primitive roots and k-th roots | `NumTheory` (Order, Roots) | group theory in `(ZMod m)ˣ`; divisor descent | proved, 16 theorems |
| C63 | Discrete logarithms | `NumTheory` (DLog, DLogPp) | Pohlig-Hellman digits, CRT; Fermat quotients | proved, 12 theorems |
| C64 | Modular square roots | `NumTheory` (Sqrt) | quadratic extension field; Hensel lifting; CRT | proved, 6 theorems |
| C65 | Garner's mixed radix conversion | `NumTheory/Garner` | mixed radix induction on machine words | proved, 2 theorems |
| C66 | Quadratic numbers | `Quadratic` | ring extensionality | proved, 10 theorems |
| C67 | Nimbers: products, square roots, inverses and quotients | `Nimber` with the memo table as state | mex-definition of nim arithmetic; Fermat-power tower; induction on the level | proved, 10 theorems |
| C68 | Point at infinity and Moebius transformations | `Moebius` | case analysis on infinity; projective line | proved, 13 theorems |
| C69 | Geometric algebra of space | `Clifford` | isomorphism with Mathlib `CliffordAlgebra`; ring identities | proved, 13 theorems |
| C70 | Plane-based geometric algebra | `Pga` | faithful representation by the universal table; Mathlib Clifford and exterior algebras | proved, 31 theorems |
| C71 | Sums of powers, power-geometric sums and discrete integrals are exact | `Sums/PowModel.lean`: the loops of sum_pow, sum_powx and polynom_sum over a ring with a partial division; the static Bernoulli table is explicit state | Faulhaber: the Bernoulli recurrence (C55) gives S(x+1)-S(x)=(x+1)^p by comparing coefficients; loop invariants: the running binomial is C(p+1,k). sum_powx: polynomial identity (X-1)^(m+1) S_m = X^n p_m - q_m, induction on m through the derivative. sum_sigma from C43 and counting multiples. | proved, 11 theorems |
| C72 | Prime counting and sums of powers of primes are exact | `PrimeCount/Model.lean`: the sieve on the model of sqrt_map (C27) with its in-place loops; sum_pow from C71 with its static table | Sets left(v,p) = numbers up to v that are prime or have no prime factor up to p; the numbers removed in round p are p times (left(v/p,p-1) minus left(p-1,p-1)); loop invariants say which entries are already updated, and that the entries read are not. | proved, 7 theorems |
| C73 | Prime exponents of factorials and multinomials are exact | `Counting/Model.lean`: the loops of comb_primes.h and multinomial over natural numbers and a ring with a partial division | Legendre formula; the partial products are multinomials of prefixes, so every division is exact; arrangements of a sorted sequence by its runs | proved, 9 theorems |
| C74 | Stirling numbers of both kinds are exact | `Counting/Model.lean`: the table recurrences, the product tree and the series computations | recurrences of descPochhammer coefficients and of Nat.stirlingSecond; exponential generating functions through C60; inclusion-exclusion by induction | proved, 13 theorems |
| C75 | The Euler function and partition numbers are exact | `Counting/Model.lean`: the in-place pentagonal loops and the series computations | Mathlib pentagonal number theorem and partition generating functions, brought down to finite products (`PartMath.lean`); loop invariants over the two sequences of pentagonal numbers; C60 for inverse and quotient | proved, 8 theorems |
| C76 | Sums of two squares: found, listed completely and counted | `Squares/Model.lean`: cornacchia, the table, the list with its sets and signs, and the counting loop; sets are sorted lists, the table a partial function | Euclid invariant of Cornacchia (`Corn.lean`); multiplication by a Gaussian prime acts on the representations (`Math.lean`); completeness by induction on the factorization; counting by the eightfold symmetry | proved, 7 theorems |
| C77 | Factorials and binomials modulo prime powers are exact | `CombPP/Model.lean`: the table, the direct loops, and the loop over the look-up table up to p^e; unbounded integers | loop invariants splitting n! into a power of p and the rest; generalized Wilson theorem modulo p^e from the self-inverse units (`Math.lean`); periodicity of the products | proved, 7 theorems |
| C78 | Pythagorean triples are listed completely and once | `Triples/Model.lean`: the nested loops over m, n and k and the loop over the divisors; the visitor appends to a list | the loops are flat maps over their index lists (`Lists.lean`); Mathlib classification of primitive Pythagorean triples; parameters are recovered from the triple for uniqueness; C14 for the divisors | proved, 2 theorems |
| C79 | The tree of triples with a^2 + b^2 + k = c^2 is complete, without repetition | `Triples/Model.lean`: the search for generators, the loop over the growing vector and its inner loop | each matrix is unimodular and every triple has one parent (`Tree.lean`); invariant of the growing vector; termination by a weight 4^(n-c); completeness by descent on c; bounds of the generators by inequalities | proved, 3 theorems |
| C80 | Eisenstein triples are listed completely and once | `Triples/Model.lean`: both loops with their common factor 3 | parametrisation of x^2 + xy + y^2 = z^2 by lowest terms of (z+x)/y, with gcd 1 or 3 (`Eis.lean`); swapping x and y exchanges the two cases | proved, 2 theorems |
| C81 | Almost-Pythagorean triples are listed completely and once | `Triples/Model.lean`: the loop with the extended Euclidean cofactors | factor (c+a)/2 (c-a)/2 = (b+1)/2 (b-1)/2 by the gcd; uniqueness of reduced cofactors; parity of c (`Almost.lean`) | proved, 1 theorems |
| C82 | Random values land in the requested range without bias, and the xorshift generators never get stuck | `Random/Model.lean`: words are bit vectors, `next` is an infinite sequence of values, the generators are functions on their state | arithmetic modulo 2^w; counting of residues below a multiple of the width; xor-shift is injective bit by bit | proved, 8 theorems |
| C83 | galois_field_2 computes in every bit lane as in the field with two elements | `Vectors/Model.lean`: the operators on bit vectors | lane by lane | proved, 2 theorems |
| C84 | vector2d, vector3d and vectorNd are ordered lexicographically and satisfy the identities of plane and space geometry | `Vectors/Model.lean`: operators of the three classes; a `const T&` argument is a value or an element of the vector itself | ring identities; case analysis of the order; loop invariants for vectorNd | proved, 12 theorems |
| C85 | pell_PQa expands (P0 + sqrt D) / Q0 into its continued fraction and returns the length of the period | `Pell/Model.lean`: the six vectors and the local variables of pell_PQa; the loop on fuel | integer theory of reduced quadratic numbers (`Cycle.lean`): the denominators descend until a reduced pair, reduced pairs are finitely many and the step on them is injective, so the first repeated pair is the first one; the real numbers and Mathlib GenContFract come in only to state what the vectors are (`PQa.lean`) | proved, 1 theorems |
| C86 | pell1 finds the least positive solution of x^2 - D y^2 = 1 or -1, whose powers are all the solutions | `Pell/Model.lean`: pell1 and its listing | every coprime positive pair of norm at most sqrt D is a convergent, by descent on the form (`descend`, `exists_conv`); a denominator 1 closes the period; convergents one period later are multiplied by the unit (`Units.lean`) | proved, 3 theorems |
| C87 | pellS finds the least positive solution of every class of x^2 - D y^2 = N when N^2 < D | `Pell/Model.lean`: pellS | divide by the gcd, `exists_conv`, reduce the index modulo the even period | proved, 1 theorems |
| C88 | pell_mz finds a solution of x^2 - D y^2 = m in a given class | `Pell/Model.lean`: pell_mz | the quotient of two members of a class is a unit; a class with a member has members with large y, which Legendre makes convergents, so a denominator 1 or -1 occurs in every period (`Class.lean`) | proved, 2 theorems |
| C89 | pell(D, N, fN) returns one solution for each class of x^2 - D y^2 = N | `Pell/Model.lean`: pell, over the model of divisors (C14) | C88 for every divisor f with f^2 | N and every z; gcd and residue of a solution are invariants of its class (`General.lean`) | proved, 2 theorems |
| C90 | the listing variant of pell visits distinct nonnegative solutions within the limits and terminates | `Pell/Model.lean`: the passes of the listing | invariant: every visited number is below the next number of its class; distinct solutions below a limit are finitely many (`Listing.lean`) | proved, 2 theorems |
| C91 | Transitive closure and transitive reduction | `GraphAlg/ClosureModel.lean`: the two searches with their explicit stack and visited array | Invariant of the search: visited = closed set so far plus the stack; every visited node is reachable, and successors of finished nodes are visited. Reduction: an edge is dropped exactly when its target is reachable from another successor; on an acyclic graph induction along paths restores it. | proved, 2 theorems |
| C92 | All-pairs shortest paths (Floyd-Warshall) | `GraphAlg/FloydModel.lean`: the matrix of pairs and the three nested loops, updated in place | Invariant: after round k the entry is the least weight over walks with inner nodes < k; in-place updates are harmless because row and column k do not change in round k; a least walk can be taken simple | proved, 1 theorems |
| C93 | Single-source shortest paths (Dijkstra) | `GraphAlg/DijkstraModel.lean`: the std::set as a sorted list, the relaxation loop, the main loop with fuel | Ghost set of the nodes already taken: their keys are <= all keys in the queue, so they are never improved and never inserted again; each entry is the weight of a walk; all edges of taken nodes are relaxed | proved, 1 theorems |
| C94 | Minimum spanning tree (Prim) | `GraphAlg/DijkstraModel.lean`: prim_spanning_tree | Termination: the number of edges that can still improve an entry plus the length of the queue falls in every round. Counterexample to the documented property by evaluation, for every amount of fuel. | partial, 2 theorems |
| C95 | Depth-first search with a visitor | `GraphAlg/DfsModel.lean`: the stack of (node, position) pairs, the visited array, the visitor as a state transformer that may fail | Specification by forests (`DfsSpec.lean`): an inductive relation between the loop state and the forest still to be built, proved by induction on the number of unvisited nodes and the unread part of the adjacency list | proved, 4 theorems |
| C96 | In-degrees and topological order | `GraphAlg/DfsModel.lean`: in_degrees and topological_sort as a visitor of the search | The list is the reversed post-order of the forest of C95; an edge back to an ancestor would close a cycle; every node of an acyclic graph is reachable from one without incoming edges (well-founded induction) | proved, 2 theorems |
| C97 | Strongly connected components (Tarjan) | `GraphAlg/TarjanModel.lean`: all arrays and both stacks | Invariant of Tarjan: the active stack in order of index, the low number of a node is the index of an active node that it reaches; a node is closed when it reaches no earlier active one; closed components are maximal and only reach closed ones | proved, 1 theorems |
| C98 | 2-satisfiability | `GraphAlg/Sat2Model.lean`: implication graph, components from C97, assignment, final test | Soundness from the final test; completeness: ranks of the components, the implication graph is skew-symmetric, a satisfying assignment separates a literal from its negation | proved, 2 theorems |
| C99 | The lowest common ancestor structure answers depth, ancestor and distance for every pair of nodes | `GraphAlg/LcaModel.lean`: the visitor that writes (level, parent) into the segment tree, depth, ancestor, distance | The sequence of entries as a function of the depth-first forest; the least entry between the last entries of two nodes belongs to their lowest common ancestor (induction on the forest); the segment tree over the monoid of pairs with minimum (C20) | proved, 4 theorems |
| C100 | Dinic's algorithm ends and returns a maximum flow | `GraphAlg/DinicModel.lean`: adjacency lists, search for levels, search for a path with its stack, update along `prev`, phases; `FlowSpec.lean`: flows, values, cuts | Levels increase along the path, so its edges are independent; a phase with a level for the sink finds a path and adds at least 1; at the end the nodes with a level form a cut whose capacity is the value; weak duality | proved, 2 theorems |
| C101 | bipartite_matching returns a maximum matching | `GraphAlg/DinicModel.lean`: the network of the matching | Value of the flow across the left side = number of selected edges; a matching maps injectively into the edges of the minimum cut | proved, 2 theorems |
| C102 | The Aho-Corasick trie counts every occurrence of every word | `Tries/AhoModel.lean`: the vector of nodes, insertion, the search of `build`, the moves that are remembered in `next`; `AhoSpec.lean`: occurrences | Nodes are named by paths; the longest suffix that is a path moves with each letter; `next` holds a child or a remembered move, and only finished nodes have remembered moves; the counters count the words that are suffixes | proved, 4 theorems |
| C103 | The palindrome tree holds every palindrome of the text once | `Tries/PalModel.lean`: nodes, search along suffix links, new nodes, propagation; `PalSpec.lean`: palindromic substrings | Nodes are named by palindromes; the chain of suffix links from a palindrome is the list of its palindromic suffixes; a letter adds at most one palindrome, the longest palindromic suffix; propagation in decreasing order sums over the suffix links | proved, 1 theorems |
| C104 | The prefix tree is a numbered set of words | `Tries/PrefixModel.lean`: nodes on a heap with addresses, freeing makes an address unusable, all calls; `PrefixSpec.lean`: a list of words | Nodes are named by paths, each with its own address; between calls the paths are exactly the prefixes of the words; insertion adds and removal takes away one path at a time | proved, 1 theorems |
| C105 | The constant-time range minimum structure returns the leftmost minimum | `Rmq/Model.lean`: ballot numbers, block types, tables, sparse table, the table-driven logarithm, queries; signedness of `char` is a parameter; `Spec.lean`: leftmost minimum | The rest of a code is below the ballot number of its state, so the code determines the number of pops of every element, hence the stacks, hence the leftmost minima; overlapping ranges merge to the leftmost minimum | proved, 3 theorems |
| C106 | The suffix array sorts all suffixes and answers prefix and comparison queries | `SuffixArray/Model.lean`: types, buckets, induced sorting, naming, the recursion in the shared array, second sort, inverse, lcp array, queries; `Spec.lean`: sorted suffixes, longest common prefix, comparison | Induced sorting keeps, per bucket, the order of keys that compare suffixes up to the next leftmost S position; equal names have equal keys; the order of the reduced string is the order of the leftmost S suffixes; induction on the length; the lcp array by comparing with the predecessor of the next suffix; range minima by C105 | proved, 5 theorems |
| C107 | The Hungarian algorithm returns optimal assignments | `Hungarian/Model.lean`: the object, cost matrix with power-of-two stride, tree growth with slacks, label change, augmentation; `Spec.lean`: totals over permutations, largest and smallest | Invariants of labels, matching and alternating tree; every label change adds a vertex to the tree; augmentation moves a hole along the path; weak duality between labels and assignments | proved, 5 theorems |
| C108 | Push-relabel returns the maximum flow under both selection rules | `PushRelabel/Model.lean`: push, relabel, discharge, both loops over the queue with the reordering as a parameter, the start; `GraphAlg/FlowSpec.lean`: flows, values, cuts | Invariant: preflow with exact excesses and valid labelling; a set without the source that holds an excess has an edge out, hence heights stay below 2n by a free height; the queue is a topological order of the edges that go down; measure: the sum of the heights, then the rest of the queue; at the end a free height gives a saturated cut | proved, 4 theorems |
| C109 | chain_decomposition and cut_edges report exactly the bridges | chain_decomposition (tour, way up, marking, groups) and cut_edges over adjacency lists; the set of edges is a list without repetitions | the tour gives a depth-first forest (C95); bridges in terms of the tree; an invariant of the loops over the processed edges outside the tree: what has been covered is what has been visited | proved, 3 theorems |
| C110 | cut_vertices reports exactly the articulation points | cut_vertices over the same decomposition | articulation points in terms of the tree (root with two children, or a child whose subtree no edge leaves above the node); the invariant also says which child the first chain of a group comes back over | proved, 3 theorems |
| C111 | The Mertens sieves and functions give the sums of the Moebius function | `Mertens/Model.lean`, `PiModel.lean`: the sieves and the memoised functions as instances of sieve_m and sum_m; the conversion to int is explicit; specification: sums of Mathlib's Moebius function | Convolution identities (1 * mu, odd * mu odd, odd * mu even) and the hyperbola identity give the equations that C52 and C57 ask for; these have one solution | proved, 12 theorems |
| C112 | sum_multiplicative_34 sums every multiplicative function | `SumMult/Model.lean`: make_sqrt_map on the model of sqrt_map (C27), both loops and the recursion; `Spec.lean`: multiplicative functions, sums over numbers with prime factors from a set | Taking one prime out of the set splits a sum in two; by this the loops compute sums over numbers with prime factors before an index; every number above one is uniquely t q with q its largest prime | proved, 3 theorems |
| C113 | sum_multiplicative returns all partial sums of every multiplicative function | `SumMult/Model23.lean`: traverse_rough_numbers, calc_F_k and the four steps of sum_multiplicative, on the models of sqrt_map (C27) and fenwick_tree; the one-based pa1[0] is out of bounds | `Rough.lean`: calc_F_k takes one prime out of a sum over rough numbers; the traversal is described by what the visits add up to under any weights. `Step2.lean`: below the cube of the next prime only primes and products of two are left; Bertrand gives a prime between the cube root and the square root. `Step3.lean`: prefix sums in the tree are the sums at the keys, because places are in the order of the numbers | proved, 5 theorems |
| C114 | prime_pi_deprecated counts primes whatever its static tables hold from earlier calls | `PrimePi/Model.lean`: prime_pi_PHI, prime_pi_P2 and prime_pi_deprecated with the two static tables passed along; the key is checked for overflow | Legendre recursion and the count of products of two primes from the sums over rough numbers of C113; invariant: the tables hold right values for decoded keys | proved, 5 theorems |
| C115 | sum_phi fills its map with the summatory totient at every quotient | `SumPhi/Model.lean`: sum_m with the model of sqrt_map (C27) as its table, moebius_transform on the low part of the map, sum_phi with and without the table | `SumM.lean`: all keys of the recursion are quotients of n, so the map behaves as a finite map; the two loops reach every quotient. Divisor sums of the totient, and the hyperbola identity of C52 | proved, 2 theorems |
| C116 | sum_phi_D_L sums powers times generalised totients | `SumPhi/Model.lean`: powT of a polynomial, the product of the factors (x + i) / (i + 1), sum_g_L with one map for all arguments, sum_phi_D_L | `Spec.lean` counts multisets; each has one greatest common divisor, so divisor sums of the totient are multiset coefficients, which are the values of the product. polynom_sum from C71, sum_m from C115 | proved, 5 theorems |
| C117 | monotonic_search ends near a solution | Zeros/Model.lean: `bisect`, `monotonicSearch` in an ordered field (no rounding) | a solution stays in the bracket, which is halved in every round | proved, 5 theorems |
| C118 | find_zeros returns zeros in order, and all of them when its searches are exact | Zeros/Model.lean: `derivs`, `innerLoop`, `outerLoop`, `keepStep`, `findZerosWith`, `findZeros` | the candidates stay ordered; a polynomial is monotonic between neighbouring zeros of its derivative (intermediate and mean value theorems), by induction from the last derivative | proved, 3 theorems |
| C119 | heavy_light_decomposition lays out subtrees and chains | Hld/Model.lean: `visit1` (sizes), `heavyStep` (heavy child first), `visit2` (positions, chains), `build` | both traversals as the forest of C95; sizes are lengths of subtrees; all children but the first have less than half of the nodes; `parent` along a chain | proved, 3 theorems |
| C120 | heavy_light_decomposition_ex: k-th ancestor and path segments | Hld/ExModel.lean: `kthLoop`, `parentK`, `climbStep`, `fromU`, `fromV`, `atA`, `walk` | the way up from a node splits at the parent of its chain; each part lies at consecutive positions (C119); the size at least doubles in every round | proved, 3 theorems |
| C121 | Multiplication of polynomials with modulo coefficients is the product | PolyMod/Model.lean: `hilo`, `modPHilo`, `crt`, `mulFftCrt`, `mulFft`, `mulFftBig`, `impl`, `mulModF` | C42 for the transforms; a cyclic convolution of short sequences is the ordinary one; roots of order 2^28 by repeated squaring in the kernel; Chinese remainders with wrap-around; recombination of the blocks; then as C37 | proved, 6 theorems |
| C122 | Arithmetic and comparison of double_int are those of integers modulo a power of two | DoubleInt/Model.lean: `DI`, `ofInt`, `ofHalf`, `eqB`, `ult` …, `slt` …, `adc`, `sbb`, `inc`, `dec`, `add`, `sub`, `neg`, `mulFull`, `mul`, `udiv`, `sdiv` | induction on the depth with the exact carry equations; Karatsuba by a linear combination of the carry equations modulo B^4 and the size of both sides | proved, 21 theorems |
| C123 | Bit operations and conversions of double_int | DoubleInt/Model.lean: `andD`, `orD`, `xorD`, `notD`, `extShr`, `sar`, `shr`, `lzc`, `toU64`, `hex` | induction on the depth; bits of a two-digit number; division of a sign-extended number | proved, 7 theorems |
| C124 | The factorial table object gives factorials, their inverses, inverses and binomials | Holders/FactModel.lean: `FactHolder.make`, `factAt`, `ifactAt`, `invAt`, `bin` | C61 for the three tables; the binomial as a quotient of factorials | proved, 3 theorems |
| C125 | The lazily computed prime tables are right in every order of use | Holders/PrimeModel.lean: `PrimeHolder`, `ensurePq`, `ensurePf` …, `step`, `run` | invariant: each cache is empty or right (C11–C14, C61 for the computations), induction on the sequence of calls; the size of the prime table for sz < 40 by checking all of them in the kernel, otherwise a hypothesis | partial, 4 theorems |
| C126 | The table of roots of unity serves every history of requests | RootWrapper/Model.lean: `Wrap`, `mulIdx`, `Wrap.deref`, `Cache`, `get`, `after` | invariant of the cache over the sequence of calls; reading is a homomorphism from the indices; C42 for the convolution | proved, 5 theorems |
| C127 | Delimited tokens are read back as they were written | Tokenizer/Model.lean: `getLoop`, `readTok`, `readToks`, `readDelimited`, `readAllowed`, `unbox` | induction on the entries of the text; strong induction on its length | proved, 8 theorems |
| C128 | The string of a symbolic value determines the computation | Symbolic/Model.lean: `un`, `bin`, `assign`, `ofInt` | unique readability by induction on the expression, with any text after it | proved, 5 theorems |
| C129 | The Mersenne twister produces the published sequence for ever | Mersenne/Model.lean: `twist`, `reload`, `initState`, `seedOne`, `mixLoop1`, `mixLoop2`, `seedArray`, `temper`, `randInt` | invariant of the loops against an infinite sequence; the recurrence is run backwards for the zero state; the tempering is injective | proved, 5 theorems |
| C130 | Bounded numbers, reals and saved states of the Mersenne twister | Mersenne/Model.lean: `orDown`, `drawUntil`, `randIntN`, `randExc`, `randDblExc`, `rand53`, `save`, `load` | every reachable state stands at a place of a sequence; bits of the mask; induction on the draws; counting residues | proved, 5 theorems |
| C131 | biconnected_components lists exactly the blocks of a graph | biconnected_components over the decomposition of C109: the array of marks, the reset of the mark of the first node of a group, the lists | the invariant of C109 extended by what each group contains (the source of its first chain and the nodes of one block of the depth-first tree) and by the order of the groups; blocks of the tree are the classes of biconnected nodes; the marks left by earlier groups can only be at the first node of a group | proved, 2 theorems |
| C132 | block_cut_tree builds a forest of the blocks and articulation points | block_cut_tree and the constructor of biconnectivity: the five loops over the tree and the map, add_edge2 with its two appends; the data of the edges is left out | what each loop leaves in the map and in the adjacency lists; a way in the tree around an edge would give a way in the graph between the two sides that avoids the articulation point (or the bridge), against C131; ways in the graph are mapped edge by edge | proved, 2 theorems |
| C133 | The closed forms of chromatic polynomials count proper colourings | chromatic_polynomial_T, _C and _K over the model of polynom (C37), with the loop of powT on polynomials | the polynomials by C37; colourings of a tree by removing a leaf, of a cycle from those of a path whose ends differ, of a complete graph as injective maps | proved, 3 theorems |
| C134 | What is printed for nested containers determines the value | output_container with its flag, operator << for pairs and triples; the types as a tree, the printing chosen by the type | by induction on the type: the text of a value followed by a comma, a brace or the end can be cut off in one way only | proved, 8 theorems |

### Scope of each property

* **C01** sqrtT and is_square are proved for every integer of at most 2^63 bits. isqrt/isqrtc are proved on the whole range where the code has no int32 overflow; C01_isqrt_overflow shows the remaining inputs x >= (2^31-1)^2 are undefined behaviour in the code.
* **C02** cbrtT and is_cube are proved for every integer of at most 2^62 bits. icbrt/icbrtc are proved on the whole range where the code has no int64 overflow; C02_icbrt_overflow shows the rest is undefined behaviour in the code.
* **C03** gcd, gcd_ex, gcd_max and lcm over unbounded integers; C03_gcd_sign_caveat shows the documented sign caveat.
* **C04** any monoid, any exponent.
* **C05** floor, ceiling and nearest rounding of the exact rational quotient, and least multiple.
* **C06** unsigned words of 8, 16, 32 and 64 bits (mul_long for every width); signed words: exact under the stated size bound, C06_add_signed_overflow shows the bound is needed.
* **C07** unsigned words (cofactors wrap) and checked signed words.
* **C08** every expression over constants, +, -, unary -, *, powT; constructing from the minimum value of a signed type is outside the model (the code negates it). C08_instance_unnormalised documents a caveat of per-instance moduli.
* **C09** signed words: solutions and solvability are exact when lcm <= 2^(w-2). Unsigned words: proved when the difference of residues does not wrap; C09_unsigned_wrap_bug shows the code gives a wrong answer otherwise.
* **C10** C10_negative_wrong shows the hypothesis n >= 0 is needed.
* **C11** both arrays, only the flags, or only the list (flags then share the bytes of the list); n up to 2^32 with the index arithmetic checked against the int limit. C11_terminator_out_of_bounds shows the extra entry is needed.
* **C12** prime_pi, euler_phi, moebius_mu, prime_nu, factor, smallest_factor, divisor_sigma0/1 and the three segmented tables; index arithmetic is checked against the limit of the type, and the stated bounds exclude its overflows. C12_prime_pi_small, C12_smallest_factor_zero, C12_moebius_mu_zero and C12_segmented_q_short show the small-range preconditions are needed.
* **C13** factor tables, factor_integer (vector, map and product versions), factor_out, trial division, from_factorization, from_primes and fraction_reduce. Factorisation by Pollard rho is property C50.
* **C14** divisors, squarefree_signed_divisors, prime_factors, prime_exponents, divisor_sigma0, euler_phi and carmichael_lambda of a factorisation. The type of the divisors must hold n * p; C14_divisors_overflow shows this is needed.
* **C15** the reported positions are exactly all occurrences, in increasing order; C15_empty_pattern shows what happens for an empty pattern.
* **C16** indices are unbounded integers; predicate evaluations outside the interval are undefined in the model, so never evaluating outside is part of the statement.
* **C17** every history of find/unite/count/init on every size.
* **C18** every history of adds over every commutative group / monoid as stated in the theorem.
* **C19** every history of insert, pop, rebuild and sort for every strict weak order.
* **C20** every associative operation with identity (not necessarily commutative), every history of set, direct assignment and the three rebuilds; queries are exact whenever every assigned position has been rebuilt.
* **C21** any functors satisfying the stated laws (updates are endomorphisms of the monoid of values), functors that reject nodes, and every history of update, get, restore and direct edits.
* **C22** Everything of the class is modelled and proved for all inputs and histories except operator <<=: it reads words it has already overwritten, so its full statement is false (C22_shift_left_wrong, C22_shift_left_dirty, C22_shift_left_too_far); C22_shift_left_partial gives the vectors on which its result is right. >>= by more words than the vector has is undefined (C22_shift_right_too_far).
* **C23** All functions of bits.h and the table based ones of bits.cpp, at 8, 16, 32 and 64 bits (the purely bitwise ones at any width). next_combination(0) shifts by the word width, which is undefined (C23_next_combination_zero).
* **C24** Heap model of the pointer tree with sentinel node, parent links and subtree sizes, refined against a sorted list of (iterator, value, count) over every history of insert, erase by key, erase by iterator and erase of a range, in the three duplicate modes, for every strict weak order. Iteration, ++/--, size, empty, find, lower_bound, upper_bound, count_less(_or_equal), count, find_kth, iterator position and the iterator returned by insert. Not modelled: copy, clear (frees only the root), relational operators. Findings: erase returns the parent of the removed node, a negative count adds copies.
* **C25** Heap model on top of the tree model of C24; every history in the three duplicate modes and every sequence of random values in [0, random_max). Contents, iteration, size, find, counts and k-th element are those of the list specification, and the same as the plain tree gives; heap order of priorities under the stated condition, with both exceptions proved. Not modelled: copy, clear.
* **C26** Rope refined against a plain list for every history of insert, push_back, erase, range erase and assignment, every allocator and every sequence of random values; iteration, size, operator[], positions and arithmetic of iterators.
* **C27** sqrt_map: every history over keys that are at most max_lo_key or quotients of the current max_key, including reset_max, agrees with a finite map; quotients never collide. lohi_map: every history agrees with a finite map provided at() with a small key and the value of m[k] are used only for keys that are present; C27_stale and C27_lohi_at_absent show what happens otherwise. Negative keys are outside the model.
* **C28** Every operator table; expressions with operands, prefix and infix operators, parentheses, calls with at least one argument and comma-separated lists, of any size. Existence of the tree for every text needs prefix operators that bind at least as tightly as all others; both exceptions (looser prefix operators, calls without arguments) are proved as negative results. Malformed texts are not covered.
* **C29** Any history of write_char, write, write_string, formatted output, integers and flush, any capacity >= 1, both buffered_writer and fast_write, and string_writer. Floating-point output is not modelled.
* **C30** Any history of read_char, unread_char, read, data, skip and operator bool on buffered_reader for any capacity, initial buffer content and chunking; skip_whitespaces, read_line and read_string for buffered_reader and fast_read. Floating-point input is not modelled.
* **C31** Exact text written, exact value read, and the round trip for any list of integers through any pair of buffers; the least value of a type (overflow) and the byte 255 are shown as exceptions.
* **C32** polynomial_hash and cumulative_hash for every number of bases, including the shared static tables and signed overflow
* **C33** every interleaving of any number of threads at the granularity of the steps of the loop (provider and collector calls are split into a read and a write, so that lost updates would show): exactly-once execution and collection, schedule independence, bounded length of every schedule and deadlock freedom, mutual exclusion; range_job_provider and add_result_collector. Not modelled: exceptions, spurious failure of std::thread, create_worker (called by all threads without a lock), overflow of begin + len.
* **C34** take, filter, transform, run_length (with uniqueness of the encoding) and compare; the int counter of a run is unbounded in the model
* **C35** reduce, sum, product, min, max and mex over unbounded integers; the wrong default identity of reduce_max and the wrong mex of containers with duplicates are proved as negative theorems
* **C36** fraction over unbounded integers: reduction, equality, order, arithmetic, aliased operands, expressions and the zero denominator
* **C37** polynom.h: degree, negation, addition, subtraction, multiplication (schoolbook and Karatsuba for every threshold, every truncation, every aliasing of destination and operands), scalar multiplication, evaluation, derivative and equality over every commutative ring; a scalar that lives inside the destination is proved to go wrong
* **C38** schoolbook and power series division, inverse and division by a scalar over every commutative ring when the leading (constant) coefficient can be divided by exactly, hence over every field; integral over every field; the floating point choice between the two division algorithms is an arbitrary function of the degrees; the destination may be the dividend but not the divisor
* **C39** over every field and every size; rank() of a singular matrix is proved to be wrong on a concrete matrix; pow is the generic powT of C04
* **C40** every n, every valid permutation, every integer exponent; machine overflow of j + T and -T is not modelled; root() is not modelled; the pointwise reading of the comment on operator* is shown to be the wrong way round
* **C41** Every aliasing pattern of the arrays is covered; commutative ring elements; log_n < 31/32 so that 1 << log_n is defined is the only omitted machine bound; xor division by n is a parameter with the law x*n/n = x.
* **C42** fft, fft_rec, fft_cyclic_convolution, convolution and cyclic_convolution over every commutative ring; the root condition is w^(n/2) = -1, derived from the principal-root definition when 2 is a unit; floating point rounding is not modelled
* **C43** sum, sum_ratio (every sign of a, b, q and n), sum_sqrt, both sum_sqrt2m overloads and sum_sqrt2 over every commutative ring; the square root is a parameter that only has to be positive, instantiated with the modelled sqrtT
* **C44** nth_permutation: permutation, index modulo d!, strictly increasing in the index, surjective; next_partition and next_combination: neighbour in lexicographic order, wrap-around, and every object visited from the first one; next_combination needs distinct elements (an example shows that equal elements are skipped); factorials do not overflow
* **C45** continued_fraction for every sign; convergents for non-negative terms (examples show that negative terms are dropped), with any non-negative number of semi-convergents
* **C46** every history of allocate/deallocate/clear with any malloc outcomes; C46_clear_live shows what clear() does while slots are live. The implicitly generated copy of the allocator (shares the pool) is not modelled.
* **C47** For every history of add, link, cut, assignments through get, find_root, find_parent, find_lca, depth, get and traverse from the empty structure, executed on the pointer heap with the real splay code, no undefined behaviour occurs and all answers are those of the rooted forest (C47_run); any aggregate over an associative, not necessarily commutative operation with identity whose f_up keeps the own value. traverse with an arbitrary callback is a search on the root path (C47_traverse). The paths used in the specification are complete (C47_paths). C47_link_not_root: linking a non-root silently attaches its root instead.
* **C48** delete_edge, delete_node, add_node, add_edge, add_edge2 and contract, for every multigraph with arbitrary edge data.
* **C49** every commutative ring in which x / 1 = x (division by the leading coefficient 1 of the characteristic polynomial), values in any module, every order and every n >= 0; conversions, linear_recurrence_next, Fibonacci and Lucas sequences
* **C50** unsigned 8/16/32/64-bit types; every prime is accepted whatever the bases, a base not coprime to n rejects, the test with all bases is exact, the automatic choice of bases is proved exact below 2304 only (the published bounds of the larger ranges are not proved); pollard_rho returns a divisor different from 1; factor_integer terminates with product n, and is the prime factorisation whenever the bases it returns are prime
* **C51** unbounded integers for integer_digits/from_digits/integer_string (negative numbers have no digits, digits above 36 read outside the table); unsigned 8/16/32/64-bit types with b*q representable for the expansions of fractions; expansion, termination and minimality of pre-period and period
* **C52** over any commutative ring; arbitrary functions (existence and uniqueness), multiplicative and completely multiplicative variants (division there needs g(1) = 1: a documented-as-allowed g(1) different from 1 gives a wrong table, shown by example), Moebius transforms, sieve_m and its multiplicative variants (which need M[0] = 0 on entry)
* **C53** the square root is a parameter that is the floor square root, instantiated with the modelled sqrtT; convergents in the sense of Mathlib's Real.convergent; unbounded integers
* **C54** every field (A = T), every sequence with a recurrence of order at most N/2, N >= 2; also that a single element makes it divide by zero
* **C55** over the rationals equal to the Mathlib Bernoulli numbers; in general fields the defining recurrence
* **C56** unbounded integers; started with an infinity at a negative fraction it goes the wrong way (proved)
* **C57** any commutative ring, tables as finite maps, the integer root a parameter (any value between 1 and n is enough)
* **C58** any commutative ring, tables as finite maps, exact integer square root assumed (C01), cube root any value between 1 and n
* **C59** any commutative ring
* **C60** Every field for ln, exp, pow, reversion, integral and find_root when 1..N are invertible (C60_integral_char shows the code needs N itself invertible); multiplication, composition, substitution and shifts over every commutative ring; inverse and division also over rings in which the constant term divides exactly. Powers of a series without constant term need lowest*a <= N above the threshold (otherwise undefined, proved), the zero series recurses forever there (proved). Storage modes other than INSTANCE share the same operations and are not separate models.
* **C61** Every commutative ring or field; inv_factorials past its table, inverses of an empty range and invert_field with a zero element are shown to be wrong or undefined.
* **C62** All moduli and factorizations; existence of a primitive root exactly for 1, 2, 4, p^k, 2p^k follows from Mathlib. kth_roots_of_unity without a primitive root returns only part of the roots (C62_kth_roots_of_unity_not_all). Values are unbounded integers.
* **C63** Every finite-order element of every monoid for the _g versions. The variants that require b to be a power of a do not detect a violation (C63_order_pp_not_power).
* **C64** sqrt_cipolla also shown to end for non-residues (C64_sqrt_cipolla_ends; the value returned is then not a root and sqrt_mod checks it). A negative y modulo 2^k is reported to have no root (C64_sqrt_p2_negative).
* **C65** Word sizes 8, 16, 32 and 64 bits, on the machine arithmetic of C06 and C07. The moduli have to increase, which the documentation does not say: C65_garner_decreasing shows a wrong result otherwise.
* **C66** Any commutative coefficient ring. C66_gaussian_gcd_diverges: base.h gcd on Gaussian integers may run for ever, since % rounds the quotient towards zero. Operations between numbers with different D are not modelled.
* **C67** The product is specified by the minimal-excluded-value rule; existence, uniqueness and the field laws are proved (no Mathlib nimber theory is used). The cache is explicit state. hash and stream output are not modelled.
* **C68** The entries the documentation marks as undefined are left out of the tables. Findings: unary minus makes infinity finite (C68_neg_infinity) and two infinite values may compare unequal (C68_infinities_differ).
* **C69** Exact arithmetic: rounding of floating-point coefficients is not modelled; make_rotor takes an exact square root as a parameter. C69_alias: m *= m.r is wrong because the argument aliases a member. Comparison operators and casts are not modelled.
* **C70** Exact arithmetic; the compile-time choice of result types is not modelled (all results are written in the widest type) and neither is the dangling reference of zero - b (pga.h:555). rotor(n, a) is modelled with the cosine and sine of the half angle as inputs. C70_sandwich_needs and C70_inverse_line_needs show that the orthogonality conditions are necessary.
* **C71** Exponents are not negative and n >= 0. C71_sum_pow_int_needs: integers with p > 3 give a wrong sum, as documented. The static table is shared by all moduli of a moduloX type: mixing moduli at run time is not covered.
* **C72** sqrtT is a parameter that must be the floor of the square root (C72_sqrt_lib: the library version is). n = 0 divides by zero in prime_power_sum_sqrt (C72_zero); prime_sum and prime_pi test for it. Machine overflow of k * p is not modelled.
* **C73** Natural-number arguments; machine overflow is not modelled. C73_not_prime: p = 1 never ends and p = 0 divides by zero. C73_elements_unsorted: elements_multinomial counts wrongly when equal elements are not adjacent, as its comment requires. multinomial needs exact division by the small numbers (integers, or a field where they are invertible).
* **C74** C74_column_beyond: the column functions are undefined for k >= 200 and k > n. stirling_s2 and the row functions need the small factorials to be invertible or the division to be exact.
* **C75** n = 0 writes outside of an empty vector (C75_euler_zero). The series versions need division by one to be exact, which holds over the integers and fields (C75_divides).
* **C76** Unbounded integers; std::unordered_map is a partial function and std::set its sorted list. The factorization must list distinct primes with their exponents (any order). The user table may be any table of correct decompositions. Primes below 2^(2^63), from the square root of base.h.
* **C77** Unbounded integers, natural-number arguments, p prime (any positive p for the skipped products), any e including 0. The version with the table up to p*e (factorial_mod_pp_skipped, *_reduced) is not part of this claim.
* **C78** Unbounded integers, 1 <= c_max < 2^(2^63) (from the square root of base.h). The factorization must list the distinct primes of the leg with their exponents; the divisors must fit the type (leg^2 times each prime).
* **C79** Unbounded integers, isqrt exact (C01). For k = 0 and k = 1 the solutions with a zero leg, (0, 1, 1) and (0, 0, 1), are not listed. Generators are returned even when they exceed n (example). C79_degenerate_generator: with (0, 1, 1) as the only generator the loop never ends.
* **C80** Unbounded integers, c_max below the limit of the square root of base.h. eisenstein_triples60 also visits the equilateral triangles, which its documentation (0 < a < b < c) excludes; the theorem states it.
* **C81** Unbounded integers; every c_max, also negative.
* **C82** Unsigned words of any width. The conversions to double are not modelled; that the period of the generators is maximal is not proved (only that it is pure and avoids zero).
* **C83** Words of any width.
* **C84** Exact arithmetic. near, unit and abs1 (tolerances and square roots of floating-point coordinates) and element-wise division of vector2d/vector3d are not modelled. C84_mul_assign2_alias and C84_op_scal_alias: v *= v.x and v *= v[0] are wrong because the argument is a reference into the vector being changed.
* **C85** Unbounded integers; D below 2^(2^63) (limit of the square root of base.h). Loops run on fuel; the theorems say that enough fuel exists and that more does not change the result.
* **C86** As C85. C86_pell1_unbounded: without a limit the listing never ends.
* **C87** As C85; N = 1 and N = -1, which the documentation leaves to pell1, are included when D > 1.
* **C88** As C85. That an empty answer means an empty class is proved, and true, only when x^2 - D y^2 = -1 has no solution: C88_pell_mz_misses is a class that is missed.
* **C89** As C85. Completeness is proved, and true, only when x^2 - D y^2 = -1 has no solution: C89_pell_misses.
* **C90** As C85, with at least one limit. The documentation says all solutions are listed; that is false even when pell(D, N, fN) finds every class: C90_pell_list_stops_early. Proved instead: what is listed for the classes whose representative has components >= 0.
* **C91** Graphs are lists of adjacency lists with targets in range.
* **C92** inf must exceed the weight of every simple walk (InfOk) and inf + inf must not overflow: weights are unbounded integers in the model.
* **C93** Weights are unbounded integers; the set is a sorted list. Any fuel above the number of nodes gives the same result, which bounds the number of nodes taken from the queue.
* **C94** Proved: the function ends, and every reachable node gets an edge of the graph leading to it from a reachable node. That these edges form a (minimum) spanning tree is false: C94_prim_not_a_tree.
* **C95** The visitor is any function with a state whose answers are given by a fixed function of parent and node; termination is part of the claim.
* **C96** Acyclicity is needed: an example shows a cyclic graph losing nodes.
* **C97** The header speaks of an acyclic graph; the claim is proved for every graph.
* **C98** Literals >= -1 and given values in -1, 0, 1 are preconditions of the header.
* **C99** The levels are ints: fewer than 2^31-1 nodes.  The forest of a directed graph depends on the order of the nodes; for undirected graphs the answers are stated in terms of the graph alone.
* **C100** Integer capacities, unbounded; no capacity exceeds infinity.  visited is not cleared within a phase, so a phase finds one path: the result is the maximum all the same.
* **C101** Distinct edges between two disjoint sides are the precondition; C101_repeated_edge shows why distinct.
* **C102** Non-empty words, all inserted before build; C102_empty_word and C102_insert_late show the other cases fail.
* **C103** Unbounded numbers.
* **C104** Letters are given as ordinals below the alphabet size; clear(), copying and the destructor are not modelled.
* **C105** Block sizes up to 128 and a signed char; C105_unsigned_char shows the code fails where char is unsigned, C105_size that size() is rounded up.
* **C106** Letters are natural numbers; the memory after the string is arbitrary but readable: C106_reads_past_the_end shows the read, C106_empty_string the precondition.
* **C107** Costs are unbounded integers; C107_match_vectors_padded and C107_resize_moves_costs state two surprises of the interface.
* **C108** Capacities are unbounded integers; std::sort is any function that returns a permutation sorted by decreasing heights; C108_infinity_too_small and C108_unknown_rule show what happens outside the preconditions.
* **C109** All undirected graphs. The order in which an unordered_set is iterated is not modelled. C109_parallel_edges: two edges between the same nodes count as one.
* **C110** All simple undirected graphs, any list of the bridges. C110_loop: with a loop a leaf is reported.
* **C111** The functions with a table of known values and all sieves. The versions that take a table of prime counts hold for 9 <= n < 2^62 (see C113 for smaller n). C111_even_overflow: at n = 2^31 mertens_even is one too large, because its lambda takes an int. C111_first: the table must start with zero.
* **C112** All n >= 1, all commutative rings, the map of sums built by make_sqrt_map. The integer square root is a parameter with its specification (C01). C112_zero: n = 0 divides by zero in the constructor of the map.
* **C113** All 9 <= n < 2^62 (the index arithmetic of the Fenwick tree is 64-bit), all commutative rings, all tables of the primes up to a bound between n^(1/2) and n / n^(1/3). C113_before_table: for 2 <= n <= 7 the element before the table is read, whatever the arguments. C113_long_table: a table that reaches beyond n / n^(1/3) does the same. isqrt and icbrt are parameters with their specification (C01).
* **C114** int64_t with m < 2^47 and tables that reach far enough (spelled out in Enough). C114_history: any sequence of calls that share the static tables. C114_past_end: with the primes up to the square root, as documented, prime_pi_P2 reads past the end of the table. C114_key_overflow: the key overflows from 2^47, not 2^48.
* **C115** sum_m on a sqrt_map and sum_phi; integer roots are parameters with their contract
* **C116** sum_g_L and sum_phi_D_L (both overloads) over a field; integer roots are parameters with their contract
* **C117** Exact arithmetic in an ordered field: in the interval, close to a solution unless |p| <= epsy; the tolerance test ignores y (finding).
* **C118** Soundness and order for the function itself; completeness over the reals for any search that finds a zero of a monotonic function when there is one.
* **C119** The forest is given with its parents when each tree hangs from its least node (Hld/Spec.lean: Rooted).
* **C120** The visitor is taken as the list of its calls; nodes in one tree. On top of C99 (lowest_common_ancestor) and C119.
* **C121** The complex transforms in exact arithmetic: the floating-point error of complex<double> is not modelled (hypothesis Exact, met by the complex numbers). _mul_fft_crt, which uses integers only, without such a hypothesis.
* **C122** Every depth of nesting; words of w >= 3 bits. The intrinsics are what the test structures do; signed wrap-around of prim_int::operator += is assumed (C122_signed_overflow shows it can leave the range). / and % always give 0 (C122_div_zero), postfix ++ does not change the object (C122_post_inc).
* **C123** Right shifts for double_int<prim_int> only: deeper ones need operator <<=, which does not compile. to_string16 for words whose width is a multiple of 4 and at most 64.
* **C124** Over a field with decidable equality; indices as naturals (the code takes int / size_t).
* **C125** Unconditional for 3 <= sz < 40 (C125_history_small). For larger sz (below 2^30) under the hypothesis that the estimate int(sz / (log(sz) - 1.1)) + 5 exceeds the number of primes below sz: missing is a proof of this analytic bound (and of its floating-point evaluation). Writing through the returned references is not modelled.
* **C126** Exact arithmetic: cos and sin give the exact roots (rt, instantiated with the complex exponential). A resize to a greater size is taken to reallocate. C126_dangling and C126_one are findings.
* **C127** isspace is a parameter (any predicate). The stream has its fail bit clear at the start; reading ints (ints_delimited_space) is not modelled.
* **C128** Strings as lists of characters.
* **C129** The seeding from /dev/urandom or the clock is not modelled. That the period is maximal is not proved.
* **C130** Reals as exact rationals (the operations of these three functions are exact in double). rand(), randNorm and the versions scaled by n, which round, and the stream operators are not modelled. That randInt(n) ends is not claimed.
* **C131** chain_decomposition and biconnected_components, for all undirected graphs; three nodes pairwise biconnected are in one list; block_cut_tree is C132
* **C132** All simple undirected graphs, any list of the bridges; the data of the edges of the tree (default constructed in the code) is not modelled
* **C133** Coefficients are integers without overflow, id = 1. Colourings are those of Mathlib (SimpleGraph.Coloring). chromatic_polynomial for any graph (lines 48-111) is not modelled.
* **C134** The printing of the elements is a parameter with the property Plain, shown for decimal notation of integers; the flags of the manipulators are parameters; the overloads for the other mathematical types (lines 186-301) are not modelled

## What is modelled and what is not

Paths are relative to `include/altruct/`.

| header | modelled | left out |
|----|----|----|
| algorithm/collections/collections.h | take, filter, transform, run_length, compare | |
| algorithm/hash/polynomial_hash.h | all | |
| algorithm/math/base.h | sqrtT, isqrt, cbrtT, icbrt, gcd, gcd_ex, gcd_max, lcm, powT, rounding division, multiple | floating point overloads, casts, iterator helpers |
| algorithm/math/bits.h | all | compiler intrinsics |
| algorithm/math/combinatorics.h | all | |
| algorithm/math/convergents.h | continued_fraction, convergents, sqrt_convergent | line_closest_lattice_point, minimize_floor_ladder |
| algorithm/math/convolutions.h | all | |
| algorithm/math/divisor_sums.h | Dirichlet convolution, division, inverse, their multiplicative variants, Moebius transforms, sieve_m, sum_m, sqfree_count, coprime_sum, divisor_sigma, sum_multiplicative, sum_multiplicative_34, traverse_rough_numbers, sum_g_L, sum_phi_D_L, sum_phi | element types other than rings and fields |
| algorithm/math/polynoms.h | monotonic_search and find_zeros in exact arithmetic (C117, C118), polynom_sum (C71) | rounding of floating point numbers |
| algorithm/math/factorization.h | all | |
| algorithm/math/fft.h | all | complex roots of unity (floating point) |
| algorithm/math/polynom_mod.h | all; `cost_karatsuba` < `cost_fft` is an arbitrary answer | errors of `complex<double>` (exact arithmetic assumed) |
| algorithm/math/fractions.h | all | |
| algorithm/math/mertens.h | all | - |
| algorithm/math/prime_pi.h | all, for int64_t and int | - |
| algorithm/math/modulos.h | all | |
| algorithm/math/primes.h | all | |
| algorithm/math/ranges.h | all | |
| algorithm/math/recurrence.h | all | |
| algorithm/math/reduce.h | all | |
| algorithm/math/sums.h | sum, sum_ratio, sum_sqrt, sum_sqrt2m, sum_sqrt2 | sum_pow, sum_powx |
| algorithm/parser/shunting_yard.h | all | |
| algorithm/search/binary_search.h, kmp_search.h | all | |
| concurrency/concurrency.h | parallel_execute, range_job_provider | thread creation failures |
| io/reader.h, io/writer.h, io/fast_io.h | characters, strings, integers, buffering | floating point text, `FILE*` errors |
| structure/container/* | binary_heap, binary_search_tree, bit_vector, bounded_contiguous_allocator, lazy_segment_tree, link_cut_tree, lohi_map, rope, segment_tree, sqrt_map, treap | copying whole trees |
| structure/graph/* | disjoint_set, graph | |
| structure/math/* | clifford3, complex, fenwick_tree, fraction, matrix, modulo, moebius_tr, nimber, permutation (not root), pga, polynom, quadratic, series, with_infinity | hashing and stream output |
| experimental/…/algorithm/graph/* | transitive_closure, floyd_warshall, dijkstra, prim_spanning_tree, iterative_dfs, topological_sort, tarjan_scc, sat2, lowest_common_ancestor, dinic_flow, bipartite_matching, hungarian, push_relabel_flow, chain_decomposition, heavy_light_decomposition, chromatic_polynomial (lines 13-34) | the others, see below |
| experimental/…/structure/container/* | aho_corasick_trie, palindrome_tree, prefix_tree, range_minimum_query, suffix_array | the others, see below |
| experimental/…/structure/math/double_int.h | constructors, comparisons, carry arithmetic, `*`, `/`, `%` (as they are), bitwise, right shifts, leading zeros, hexadecimal output; the intrinsics of test/structure/math/double_int_test.cpp | `operator <<=` (does not compile), the commented-out decimal conversions |
| structure/math/factorial_holder.h | everything | copying |
| structure/math/prime_holder.h | everything, with `divisors` at `I = int`; `vp` with the cells behind its end | the value of `log`; writing through the returned references |
| structure/math/root_wrapper.h | everything; the static vector as a state with the number of its allocation | floating-point error |
| io/iostream_overloads.h | `output_container`, pairs, triples, fractions, residues (lines 102-184) | manipulators, the printing of the other mathematical types |
| io/stream_tokenizer.h | `token`, `tokens` of tokens, the predicates, `unbox_tokens` | `tokens<int, char>`; `alphanum_p` is a parameter |
| structure/math/symbolic.h | all operators, construction from integers | `castT` from other types |
| algorithm/random/mersenne_twister.h | `seed(oneSeed)`, `seed(bigSeed, seedLength)`, `reload`, `randInt`, `randInt(n)`, `randExc`, `randDblExc`, `rand53`, `save`, `load` | `seed()`, `hash`, `rand`, `randNorm`, the versions scaled by `n`, stream operators |

Not modelled: `algorithm/math/`{comb_mod_pp (lines 185-342: the version with the table up to p*e), gmp_helpers}, `algorithm/hash/std_*`, `chrono/*`, `io/iostream_overloads` (lines 80-100 and 186-301: manipulators, the printing of polynomials, vectors, matrices, multivectors), `structure/container/lazy_treap`, `experimental/include/altruct/algorithm/graph/chromatic_polynomial` (lines 36-111: the version for any graph), `experimental/include/altruct/structure/math/double_int` (lines 171-188: `operator <<=`).

## Behaviour worth knowing

Where the code does not do what its interface suggests, this is stated and
proved as a theorem or shown as an example next to the property.

| place | behaviour | where |
|----|----|----|
| base.cpp `isqrt`, `icbrt` | overflow for x >= (2^31-1)^2, x >= 2097151^3 | C01, C02 |
| modulos.h `chinese_remainder` | wrong on unsigned types when the difference of residues wraps | C09 |
| modulos.cpp `jacobi` | jacobi(-1, 3) is 0 | C10 |
| modulo.h `modulo_add` | signed overflow when M > 2^(w-2) | C06 |
| modulo.h one-argument constructor | per-instance moduli: the value is not normalised | C08 |
| primes.cpp `primes` | writes a terminator one past the list | C11 |
| primes.cpp tables | small n read or write out of bounds (smallest_factor, moebius_mu, prime_pi, segmented_q) | C12 |
| primes.h `divisors` | the type has to hold n * p | C14 |
| bit_vector.h `<<=` | reads words it has already overwritten | C22 |
| bits.h `next_combination(0)` | shifts by the word width | C23 |
| reduce.h `reduce_max` | the default identity is the least positive value for floating types | C35 |
| reduce.h `reduce_mex` | wrong with duplicates | C35 |
| polynomial_hash.h | negative elements, a second assign and large moduli | C32 |
| fraction.h | 0/0 divides by zero, x/0 survives | C36 |
| polynom.h `*=` | a scalar that is a coefficient of the destination changes during the loop | C37 |
| matrix.h `rank` | wrong for singular matrices | C39 |
| permutation.h | the comment on the product order is the wrong way round | C40 |
| combinatorics.h `next_combination` | ends early with equal elements; `next_partition` of an empty range writes | C44 |
| convergents.h | negative terms are dropped | C45 |
| recurrence.h `berlekamp_massey` | fewer than two elements divide by zero | C54 |
| primes.h `integer_digits`, `integer_string` | negative numbers have no digits; digits above 36 are read outside the table | C51 |
| fractions.h `farey_neighbour` | an infinity as the previous neighbour of a negative fraction goes the wrong way | C56 |
| divisor_sums.h | multiplicative division needs g(1) = 1; `sieve_m_multiplicative` reads M[0] | C52 |
| binary_search_tree.h `erase` | negative counts add copies; the parent, not the successor, is returned | C24 |
| treap.h | needs rnd() >= 0; duplicates re-inserted or partly erased break the heap order | C25 |
| lohi_map.h, sqrt_map.h | stale values after reset; at() of an absent small key does not throw | C27 |
| shunting_yard.h | loose prefix operators; functions without arguments | C28 |
| reader.h | the byte 255 is the end of the input; the least value of a type overflows; read(count > capacity) is short | C30, C31 |
| writer.h | capacity 0 loops for ever | C29 |
| bounded_contiguous_allocator.h `clear` | hands out live slots again | C46 |
| link_cut_tree.h `link` | linking a non-root attaches its root | C47 |
| series.h | precision 0, large shifts, powers of the zero series, ln and integral modulo p with N = p | C60 |
| ranges.h | inv_factorials past its table, inverses of an empty range, invert_field with a zero | C61 |
| modulos.h `garner` | the moduli have to increase | C65 |
| quadratic.h | gcd of Gaussian integers may not end | C66 |
| modulos.h | kth_roots_of_unity incomplete without a primitive root; roots of negative y modulo 2^k; logarithms of non-powers | C62, C63, C64 |
| with_infinity.h | unary minus makes infinity finite; two infinities compare unequal | C68 |
| clifford3.h `*=` | the argument may alias a member | C69 |
| pga.h | sandwich products and inverses assume orthogonality conditions | C70 |
| comb_primes.h, counting.h | p = 1 never ends; unsorted sequences are counted wrongly | C73 |
| counting.h `stirling_*_all_n_for_k` | undefined for k >= 200 and k > n | C74 |
| counting.h `euler_function(0)`, `partitions_p*(0)` | write outside of an empty vector | C75 |
| triples.h `generate_pythagorean_triples` | generators beyond n are returned; never ends for the generator (0, 1, 1) | C79 |
| triples.h `pythagorean_triples_generators` | returns `vector<triple<int>>` as `vector<triple<I>>`: only I = int compiles | by reading |
| triples.h `eisenstein_triples60` | also lists the equilateral triangles, against its documentation | C80 |
| vector2d.h, vector3d.h, vectorNd.h `operator *=(const T&)` | `v *= v.x` uses the changed coordinate for the others | C84_mul_assign2_alias, C84_op_scal_alias |
| pell.h `pell_mz`, `pell` | when the first denominator of absolute value 1 is -1 with the wrong sign, only the place one period later is tried; classes are missed, e.g. (1, 2) of x^2 - 2 y^2 = -7 | C88_pell_mz_misses, C89_pell_misses |
| pell.h listing `pell` | stops when the first pass has only representatives with a negative component: nothing is listed for x^2 - 3 y^2 = 6 | C90_pell_list_stops_early |
| pell.h listings | never end when all limits are 0 | C86_pell1_unbounded |
| experimental prim_spanning_tree.h | does not test whether a node is already in the tree: for 0-1 (5), 1-2 (1), 2-3 (2), 3-1 (3) the result is the cycle 1, 3, 2 and the root alone | C94_prim_not_a_tree |
| experimental bipartite_matching.h | a repeated edge is returned as often as it is given, so the result is no matching | C101_repeated_edge |
| experimental dinic_flow.h | `construct_blocking_flow` never clears `visited`, so each phase finds one augmenting path, not a blocking flow (running time, not the result) | C100_max_flow covers the result |
| experimental aho_corasick_trie.h | the empty word counts twice per letter (`build` adds the root's counter to itself) | C102_empty_word |
| experimental aho_corasick_trie.h | `insert` after a search takes remembered moves for children | C102_insert_late |
| experimental/…/range_minimum_query.h | the mark "not filled yet" is -1 in a `char`; where `char` is unsigned no table is ever filled and wrong positions are returned | `C105_unsigned_char` |
| experimental/…/range_minimum_query.h | `size()` returns the padded length | `C105_size` |
| experimental/…/suffix_array.h | reads the element after the last one of the copied `std::vector`; whatever is there the order is right, but the read is undefined behaviour | `C106_reads_past_the_end` |
| experimental/…/suffix_array.h | the constructor dereferences the end iterator on the empty string although the next function handles it | `C106_empty_string` |
| experimental/…/hungarian.h | the match vectors have the length of the next power of two, the rest being 0 | `C107_match_vectors_padded` |
| experimental/…/hungarian.h | `resize` to a larger size changes the stride: costs set before are found at other positions | `C107_resize_moves_costs` |
| experimental/…/push_relabel_flow.h | an `infinity` greater than every capacity but smaller than the capacity out of the source gives too small a result | `C108_infinity_too_small` |
| experimental/…/push_relabel_flow.h | a `rule` other than the two named ones is accepted and returns what can leave the source | `C108_unknown_rule` |
| experimental/…/chain_decomposition.h | parallel edges count as one (a doubled edge is reported as a bridge and its ends as articulation points), and a loop makes a leaf an articulation point: `cut_vertices` needs a simple graph, the doc comment says `undirected` only | C109_parallel_edges, C110_loop |
| algorithm/math/mertens.h | `mertens_even` converts its argument to `int` in the lambda `t`: from n = 2^31 the result is wrong (one too large at 2^31) | `C111_even_overflow` |
| algorithm/math/divisor_sums.h | `sum_multiplicative` reads `pa[-1]` for 2 <= n <= 7 (the first prime is already above the cube root) | `C113_before_table` |
| algorithm/math/divisor_sums.h | `sum_multiplicative` reads `pa[-1]` when the table of primes reaches beyond n / icbrt(n) | `C113_long_table` |
| algorithm/math/prime_pi.h | with the primes up to m^(1/2), as documented, `prime_pi_P2` reads past the end of the table; one more prime is needed | `C114_past_end` |
| algorithm/math/prime_pi.h | `prime_pi_PHI_key` overflows `int64_t` from m = 2^47; the comment says 2^48 | `C114_key_overflow` |
| algorithm/math/divisor_sums.h | `sum_phi(0)` divides by zero in the constructor of the map | `C115_zero` |
| algorithm/math/divisor_sums.h | `sum_g_L` and `sum_phi_D_L` read the largest element of an empty list of arguments | `C116_empty` |
| algorithm/math/polynoms.h 26, 27, 33 | `monotonic_search` compares `p(x)` with 0 instead of `y` in its three early returns, so for `y != 0` it stops at a zero of `p` | `C117_stops_at_zero` |
| algorithm/math/polynoms.h 66-69 | `find_zeros` returns a zero at `-inf` twice | `C118_twice` |
| experimental …/heavy_light_decomposition.h 61 | the swap exchanges only the targets of two edges, so in a graph with weights the weights of the two edges are exchanged | `C119_weights` |
| experimental …/heavy_light_decomposition.h 114, 122 | `parent(int)` and `parent(int, int k = 1)` in the `_ex` class: a call with one argument is ambiguous and does not compile | (by reading) |
| experimental …/heavy_light_decomposition.h 170 | `walk_nodes` for nodes of different trees reads `positions[-1]`; `walk_edges` calls the visitor with negative path bounds | `C120_apart` |
| experimental …/double_int.h 123-146 | the division loop is commented out: `/` and `%` are 0 for all operands | `C122_div_zero` |
| experimental …/double_int.h 81-82 | postfix `++` and `--` change a copy and return the changed value; the object keeps its value | `C122_post_inc` |
| experimental …/double_int.h 41, 336 | construction from an `int` wider than the word truncates it: with 8-bit words 300 becomes 44 | `C122_trunc` |
| experimental …/double_int.h 114-115, 374 | the carry-less additions of the product are signed: undefined behaviour with 32-bit and 64-bit words | `C122_signed_overflow` |
| experimental …/double_int.h 184 | `operator <<=` assigns a `double_int` to its half: it does not compile once used, nor does `>>=` of a nested `double_int` | (by reading) |
| structure/math/prime_holder.h 71, 79 | `pi()` reads the cell after the last element of the vector of primes; on a copy of a holder that cell is outside the allocation | `C125_copy_pi` |
| structure/math/prime_holder.h 39 | for `sz = 2` `pi()` says that there is a prime up to 0 | `C125_pi_two` |
| structure/math/factorial_holder.h 22 | a holder of size 0 reads `_fact[-1]` | `C124_empty` |
| structure/math/root_wrapper.h 49-59 | a wrapper points into a static vector that a later call for more roots reallocates | `C126_dangling` |
| structure/math/root_wrapper.h 59 | the first call, with `l <= 1`, returns a wrapper with index 1 of a table of one root | `C126_one` |
| io/stream_tokenizer.h 97-109 | a character that neither the token nor the delimiter accepts makes reading go on for ever | `C127_diverge` |
| io/stream_tokenizer.h 97-109 | empty fields are lost, but white space after the last delimiter gives an empty token, and so does an empty text | `C127_empty_fields` |
| io/iostream_overloads.h | strings in containers are not quoted: `{"a, b"}` and `{"a", "b"}` are printed alike | `C134_strings` |
