{"id": "C01", "title": "big_int construction and conversion round trip", "statement": "A big_int built from a machine int, unsigned or (un)signed 64-bit value denotes exactly that integer, is stored in the unique shortest two's complement form, and converting back returns the original value whenever it fits the target type; conversion throws otherwise.", "quantifier": "all machine integers and all big_int values of any length", "why_tests_cant": "Values have unbounded length; boundary conditions sit at every power of 2^31/2^32/2^63/2^64 and only a proof covers all digits.", "anchors": ["sources/utilities/bigint.h: big_int(int), char_val", "sources/utilities/bigint.cpp: big_int::from_signed, from_unsigned, convert, int_val, uint_val, long_val, ulong_val"]}
{"id": "C02", "title": "big_int comparison is integer comparison", "statement": "For any two values, a<b, a==b (and the derived operators) on big_int agree with comparison of the integers they denote; equality of values is equality of representations.", "quantifier": "all pairs of big_int values of any length", "why_tests_cant": "Pairs of unbounded-length digit strings with mixed signs and lengths cannot be enumerated.", "anchors": ["sources/utilities/bigint.cpp: big_int::operator<, operator=="]}
{"id": "C03", "title": "big_int addition is exact", "statement": "a+=b, a+b, ++a, --a and a+=digit compute the exact integer sum (never overflow), for distinct objects a and b, and leave the result in canonical form.", "quantifier": "all pairs of big_int values of any length", "why_tests_cant": "Carry chains of arbitrary length and sign/length combinations are unbounded.", "anchors": ["sources/utilities/bigint.cpp: big_int::operator+=, add, carry, borrow, shrink_pos, shrink_neg", "sources/utilities/bigint.h: operator++, operator--"]}
{"id": "C04", "title": "big_int negation, complement and subtraction are exact", "statement": "negate() gives -a, complement() gives -1-a, a-=b gives a-b exactly, canonically.", "quantifier": "all big_int values of any length", "why_tests_cant": "Borrow chains of arbitrary length.", "anchors": ["sources/utilities/bigint.cpp: compl_neg, sub, operator-=", "sources/utilities/bigint.h: negate, complement"]}
{"id": "C05", "title": "reverse subtraction b-a agrees with integer subtraction", "statement": "a.subtract_from(b) and b-std::move(a) give exactly b-a in canonical form.", "quantifier": "all pairs of big_int values of any length", "why_tests_cant": "The carry out of a partially overwritten buffer only misbehaves for specific digit patterns (a 2^-32 event per digit), invisible to random tests.", "anchors": ["sources/utilities/bigint.cpp: big_int::sub_from, subtract_from, operator-=(big_int&&)"]}
{"id": "C06", "title": "big_int multiplication is exact", "statement": "a*b is the exact integer product in canonical form; a*=x for a machine digit or int gives a*x.", "quantifier": "all pairs of big_int values of any length", "why_tests_cant": "Unbounded lengths, all sign combinations.", "anchors": ["sources/utilities/bigint.cpp: big_int::operator*, operator*=(digit), operator*=(int), mult_add"]}
{"id": "C07", "title": "big_int division is floor division", "statement": "For b nonzero, a.reduce_mod(&b,&q) leaves q=floor(a/b) and the remainder r with a=q*b+r and 0<=r<b or b<r<=0; division by a single digit agrees; division by zero is signalled rather than answered.", "quantifier": "all pairs (a,b), b nonzero, of any length", "why_tests_cant": "Quotient-digit estimation errors occur with probability about 2^-32 per digit; unbounded lengths and sign combinations.", "anchors": ["sources/utilities/bigint.cpp: big_int::reduce_mod, shift_modulo"]}
{"id": "C08", "title": "big_int bitwise operations act as on infinite two's complement strings", "statement": "a&=b, a|=b, a^=b, a.bitwise_subtract(b), complement act bit by bit on the infinite two's complement expansion, and results are canonical; bitwise_subset is the corresponding inclusion test.", "quantifier": "all pairs of big_int values and all bit positions", "why_tests_cant": "Unbounded bit positions and lengths, four sign cases.", "anchors": ["sources/utilities/bigint.cpp: operator&=, operator|=, operator^=, bitwise_subtract, bitwise_subset, index_of_set_bit, bit_length"]}
{"id": "C09", "title": "big_int gcd and lcm", "statement": "gcd(a,b) is the nonnegative greatest common divisor (gcd(0,0)=0) and lcm(a,b) the corresponding least common multiple when not both arguments vanish.", "quantifier": "all pairs of big_int values", "why_tests_cant": "Unbounded Euclidean recursion depth.", "anchors": ["sources/utilities/bigint.cpp: gcd, lcm"]}
{"id": "C10", "title": "big_int decimal text round trip", "statement": "Printing a big_int gives its usual decimal notation (no superfluous zeros, minus sign if negative) and reading the digits back yields the same value.", "quantifier": "all big_int values", "why_tests_cant": "Unbounded lengths; padding errors depend on individual digit groups.", "anchors": ["sources/utilities/bigint.cpp: big_int(const char*,...), mult_add, print, operator<<"]}
{"id": "C11", "title": "big_int power", "statement": "a.power(e) is the exact e-th power for every nonnegative exponent.", "quantifier": "all values and exponents", "why_tests_cant": "Unbounded exponents.", "anchors": ["sources/utilities/bigint.cpp: big_int::power"]}
{"id": "C12", "title": "big_rat arithmetic is exact and always in lowest terms", "statement": "Every big_rat obtained by construction or by +,-,*,/,power has positive denominator, is in lowest terms and denotes the exact rational result; floor, ceil, quotient and % agree with rational floor division; comparison is that of rationals.", "quantifier": "all rationals with arbitrarily large numerator and denominator", "why_tests_cant": "Unbounded values; cancellation shortcuts depend on gcd patterns.", "anchors": ["sources/utilities/bigint.h: class big_rat", "sources/utilities/bigint.cpp: big_rat::operator+, operator-, floor, ceil, quotient, power"]}
{"id": "C13", "title": "machine integer divide and remainder are Euclidean", "statement": "For b>0, divide(a,b) is floor(a/b) and remainder(a,b) lies in [0,b) with a = b*divide(a,b)+remainder(a,b), for every signed 64-bit a including the most negative.", "quantifier": "all signed 64-bit a and positive signed 64-bit b", "why_tests_cant": "2^127 argument pairs; sign and wrap corner cases.", "anchors": ["sources/utilities/arithmetic.h: divide, remainder"]}
{"id": "C14", "title": "unsigned gcd and lcm with Bezout multiple", "statement": "unsigned_gcd(a,b) is the gcd for b>0; lcm(a,b,g,m) returns the least common multiple, g the gcd, and m a multiple of a congruent to g modulo b with m<lcm, whenever lcm fits.", "quantifier": "all unsigned 64-bit a,b with a>0 (b>0)", "why_tests_cant": "Unbounded loop count, 2^128 inputs.", "anchors": ["sources/utilities/arithmetic.cpp: unsigned_gcd, lcm", "sources/utilities/arithmetic.h: gcd, div_gcd"]}
{"id": "C15", "title": "modular and exponential helpers", "statement": "modAdd(a,b,n) is (a+b) mod n without overflow for a,b<n; modProd(a,b,n) is a*b mod n for n<=2^32 and prints a diagnostic for every larger n (the value is then unreliable); power(x,n) is x^n modulo 2^64.", "quantifier": "all 64-bit arguments", "why_tests_cant": "Overflow corner cases over 2^192 inputs.", "anchors": ["sources/utilities/arithmetic.h: modAdd", "sources/utilities/arithmetic.cpp: modProd, power"]}
{"id": "C16", "title": "Rational arithmetic is exact on the nose", "statement": "As long as no intermediate overflows, +,-,*,/,%,power, comparison, floor and ceil on Rational agree with the rationals and keep values in lowest terms.", "quantifier": "all normalised 64-bit rationals whose results fit", "why_tests_cant": "Sign and divisibility patterns over 2^256 inputs; mixed signed/unsigned conversions.", "anchors": ["sources/utilities/arithmetic.h: class Rational", "sources/utilities/arithmetic.cpp: Rational::operator+, -, *, /, %, power"]}
{"id": "C17", "title": "Split integers form the ring Z[s]/(s^2-1)", "statement": "Split_integer(a,b) represents a+bs; all operations agree with arithmetic in Z[s]/(s^2-1), e() and s() recover the coefficients for every value reachable by operations.", "quantifier": "all values reachable by any sequence of operations", "why_tests_cant": "The parity invariant must survive every history of operations.", "anchors": ["sources/utilities/arithmetic.h: class Split_integer"]}
{"id": "C18", "title": "bit counting and bit search primitives", "statement": "bitCount is the number of set bits, firstBit the least set bit (64 if none), lastBit one more than the greatest set bit (0 if none).", "quantifier": "all 64-bit words", "why_tests_cant": "2^64 words.", "anchors": ["sources/utilities/bits.h: bitCount, firstBit, lastBit", "sources/utilities/bits.cpp"]}
{"id": "C19", "title": "BitMap behaves as a finite set", "statement": "Under every sequence of insert, remove, flip, set_to, fill, reset, &=, |=, ^=, andnot, ~, membership answers, size, front and iteration agree with a mathematical subset of [0,capacity); iteration visits members in increasing order exactly once.", "quantifier": "all capacities and all operation sequences", "why_tests_cant": "Unbounded capacities and histories; unused bits of the last word must never leak.", "anchors": ["sources/utilities/bitmap.h: class BitMap", "sources/utilities/bitmap.cpp"]}
{"id": "C20", "title": "BitMap n_th and position are mutually inverse", "statement": "position(n) counts the members below n, n_th(i) is the member with exactly i smaller members (or capacity if there are fewer), so they are inverse on members.", "quantifier": "all bitmaps and arguments", "why_tests_cant": "Unbounded capacities.", "anchors": ["sources/utilities/bitmap.cpp: BitMap::position, BitMap::n_th"]}
{"id": "C21", "title": "BitMap multi-bit range access", "statement": "For a range [n,n+r) inside one machine word and inside the capacity, range(n,r) gives the r membership bits as a number, setRange(n,r,a) makes range(n,r) return the low r bits of a, and every bit outside [n,n+r) is unchanged.", "quantifier": "all bitmaps, positions, lengths up to 64 and values", "why_tests_cant": "Masks and neighbours over unbounded maps.", "anchors": ["sources/utilities/bitmap.cpp: BitMap::range, setRange"]}
{"id": "C22", "title": "BitSet behaves as a set of bits and slice/unslice are inverse", "statement": "All BitSet operations agree with subsets of [0,n); slice(c) compacts the bits selected by c preserving order and unslice(c) is its right inverse (and left inverse on subsets of c).", "quantifier": "all bit patterns of size up to 64", "why_tests_cant": "2^64 by 2^64 combinations.", "anchors": ["sources/utilities/bitset.h: BitSetBase", "sources/utilities/bitset.cpp"]}
{"id": "C23", "title": "HashTable numbering is injective and stable", "statement": "Under any sequence of match and find calls, match(x) returns the same number for equal values and different numbers for different values, numbers are assigned consecutively from 0, entries are never renumbered by growth, and find(x) answers exactly for values matched earlier.", "quantifier": "all sequences of operations, all hash functions", "why_tests_cant": "Histories and hash collision patterns are unbounded; rehashing happens at data-dependent times.", "anchors": ["sources/utilities/hashtable.h: HashTable::find", "sources/utilities/hashtable_def.h: HashTable::match, rehash"]}
{"id": "C24", "title": "TallyVec counts exactly without overflow loss", "statement": "After any sequence of tally calls, multiplicity(i) is the exact number of times i was tallied, even when counts overflow the small in-memory type, and total is the sum.", "quantifier": "all sequences of tally operations", "why_tests_cant": "Overflow into the wider tables happens at data dependent moments in unbounded histories.", "anchors": ["sources/utilities/tally.h: class TallyVec", "sources/utilities/tally_def.h"]}
{"id": "C25", "title": "SizeType prime factored arithmetic", "statement": "Multiplication, division, factorial and conversion of SizeType agree with integer arithmetic on the numbers they represent.", "quantifier": "all representable sizes", "why_tests_cant": "Unbounded products.", "anchors": ["sources/utilities/size.h", "sources/utilities/size.cpp"]}
{"id": "C26", "title": "Permutations form a group acting on vectors", "statement": "inverse, composition, renumbering, permute and pull_back of permutations satisfy the group laws and act consistently; standardization gives the stable sorting permutation.", "quantifier": "all permutations of any degree and all vectors", "why_tests_cant": "Degrees are unbounded.", "anchors": ["sources/utilities/permutations.h", "sources/utilities/permutations.cpp", "sources/utilities/permutations_def.h"]}
{"id": "C27", "title": "Partition represents exactly the given equivalence", "statement": "Partition built from a class function has class_nr(x)==class_nr(y) exactly when the function agrees, classes are numbered consecutively by first occurrence, classes are listed completely and disjointly by the iterator; orbits gives exactly the orbits of the generated group action.", "quantifier": "all functions on finite sets, all generating families", "why_tests_cant": "Unbounded sets and generator families.", "anchors": ["sources/utilities/partition.h", "sources/utilities/partition.cpp", "sources/utilities/partition_def.h"]}
{"id": "C28", "title": "Polynomial arithmetic is exact with canonical degree", "statement": "Ring operations on polynomials agree with coefficientwise arithmetic, and results never have a zero leading coefficient; in the overflow-checked version an operation either gives the exact result or throws.", "quantifier": "all polynomials over any commutative ring/any unsigned coefficient type", "why_tests_cant": "Unbounded degrees; cancellation patterns.", "anchors": ["sources/utilities/polynomials.h", "sources/utilities/polynomials_def.h"]}
{"id": "C29", "title": "Free abelian group elements behave as finitely supported functions", "statement": "After any sequence of insertions and additions of terms and of multiples of other elements, coefficient lookup returns the exact sum and iteration visits exactly the terms with nonzero coefficient, once each and in increasing order.", "quantifier": "all histories of operations", "why_tests_cant": "Internal block layout depends on the full history of operations.", "anchors": ["sources/utilities/free_abelian.h: Free_Abelian_light", "sources/utilities/free_abelian_def.h"]}
{"id": "C30", "title": "Poset from Hasse diagram is the reflexive transitive closure", "statement": "Given covering lists compatible with the numbering, lesseq(i,j) holds exactly if a chain of covering relations leads from i to j; the result is a partial order; covered_by, maxima, minima and n_comparable agree with it.", "quantifier": "all finite Hasse diagrams", "why_tests_cant": "Chains have unbounded length.", "anchors": ["sources/utilities/poset.h", "sources/utilities/poset.cpp"]}
{"id": "C31", "title": "Preorder closure is the reflexive transitive closure", "statement": "After closure, relates(i,j) holds exactly if j is reachable from i by the entered relations; cliques are the classes of mutual reachability.", "quantifier": "all finite sets of relations entered in any order", "why_tests_cant": "Reachability over unbounded graphs; union-find state depends on traversal order.", "anchors": ["sources/utilities/preorder.h", "sources/utilities/preorder.cpp"]}
{"id": "C32", "title": "Cells of an oriented graph are its strongly connected components", "statement": "cells() puts x and y in one class exactly if each can be reached from the other, and numbers the classes so that edges go from higher to lower or equal class numbers.", "quantifier": "all finite directed graphs", "why_tests_cant": "Depth-first search state over unbounded graphs.", "anchors": ["sources/utilities/graph.h", "sources/utilities/graph.cpp: OrientedGraph::cells"]}
{"id": "C33", "title": "linear algebra over Z/2: span, kernel, solving", "statement": "Gauss_Jordan/normalSpanAdd produce the reduced echelon basis of the span; membership, kernel, image, section and solvability answers agree with the F2 vector space.", "quantifier": "all finite families of bit vectors of any allowed dimension", "why_tests_cant": "2^(32*n) matrices.", "anchors": ["sources/structure/bitvector.h", "sources/structure/bitvector.cpp"]}
{"id": "C34", "title": "Subspace and Subquotient coordinates", "statement": "contains decides membership, representative gives a unique canonical coset representative, toBasis and fromBasis are mutually inverse, also for subquotients.", "quantifier": "all subspaces and vectors", "why_tests_cant": "Exponentially many subspaces.", "anchors": ["sources/structure/subquotient.h", "sources/structure/subquotient.cpp"]}
{"id": "C35", "title": "Mod2_System solves linear systems mod 2", "statement": "After adding any sequence of equations, consistency answers and the produced solution and solution basis are exactly those of the linear system over Z/2.", "quantifier": "all sequences of equations", "why_tests_cant": "Histories of equations; pivots depend on order of entry.", "anchors": ["sources/utilities/mod2_system.h", "sources/utilities/mod2_system.cpp"]}
{"id": "C36", "title": "integral column echelon form and solving", "statement": "column_echelon returns a matrix generating the same lattice in echelon form together with a unimodular recording matrix; has_solution/find_solution decide and solve integral systems; inverse is exact.", "quantifier": "all integer matrices of any size", "why_tests_cant": "Unbounded matrices; Euclidean steps depend on entries.", "anchors": ["sources/utilities/matreduc.h", "sources/utilities/matreduc.cpp: column_echelon, has_solution, find_solution, inverse"]}
{"id": "C37", "title": "Smith form and adapted bases", "statement": "diagonalise/adapted_basis/Smith_basis give unimodular changes of basis bringing the matrix to diagonal form (with divisibility chain for Smith), with the sign normalisation promised.", "quantifier": "all integer matrices", "why_tests_cant": "Unbounded matrices.", "anchors": ["sources/utilities/matreduc.cpp: diagonalise, adapted_basis, Smith_basis"]}
{"id": "C38", "title": "finite abelian group arithmetic", "statement": "Elements of a product of cyclic groups convert between packed numbers and component arrays bijectively; add, subtract, prod, order, annihilator, order modulo a subgroup, pairing, matrix action, transposition and homomorphisms agree with the group; coset, generateSubgroup, quotReps, cycGenerators and basis compute cosets, generated subgroups, one representative of each coset, one generator of each cyclic subgroup, and a lattice basis adapted to the subgroup generated by a set.", "quantifier": "all chains of divisors with a product that fits, all elements, subgroups, endomorphisms, and all earlier calls of the function with static variables", "why_tests_cant": "Unbounded ranks and moduli; sets of elements shrink while they are traversed.", "anchors": ["sources/utilities/abelian.h", "sources/utilities/abelian.cpp"]}
{"id": "C39", "title": "rational vectors", "statement": "A RationalVector computes in Q^n: construction, +, -, negation, products and quotients by integers and by rational numbers, % (reduction of every component into [0,|n|)), adding and subtracting integral vectors, scalar products, integer_diff, products with matrices and symmetrise give the vector they should; == is equality of vectors and < the lexicographic order (after size), whether or not the vectors are reduced; normalize gives the one reduced form of the vector, and throws on denominator 0.", "quantifier": "all dimensions, all vectors, factors and matrices for which the numerators and denominators of the result (and, where said, products of the input) are in the 64-bit range", "why_tests_cant": "Unbounded dimension and 2^64 values per entry; mixed signed and unsigned arithmetic; comparison by big_int differences that can have a wrong value.", "anchors": ["sources/utilities/ratvec.h", "sources/utilities/ratvec.cpp"]}
{"id": "C40", "title": "Weyl group multiplication via transducers", "statement": "A WeylGroup constructed for a Cartan matrix of finite type computes in the Coxeter group of that matrix: elements are equal exactly when their representations are; products on either side by generators, words and elements, inverses, conjugates, lengths and length changes, descents, reduced words, the longest element, the diagram involution it induces, translation by diagram maps, actions, conjugacy classes, commutation of generators and the order of the group are those of the Coxeter group.", "quantifier": "all Cartan matrices of finite type (any product of simple types with total rank up to the limit of 32 built into the program, with any numbering of the nodes), all group elements, generators and words", "why_tests_cant": "Groups have up to 2^32*32! elements; transducer tables are computed from the diagram.", "anchors": ["sources/structure/weyl.h", "sources/structure/weyl.cpp: Transducer::Transducer, WeylGroup::mult, inner_left_mult, inverse"]}
{"id": "C41", "title": "Weyl group element numbering round trip", "statement": "Conversion of Weyl group elements to big integers in mixed radix and back is a bijection onto [0,order).", "quantifier": "all Weyl groups and elements", "why_tests_cant": "Orders exceed any enumeration (E8: 696729600).", "anchors": ["sources/structure/weyl.cpp: WeylGroup::to_big_int, to_WeylElt"]}
{"id": "C42", "title": "BitMap shifts and backward search", "statement": "b<<=d and b>>=d add or subtract d from every member, dropping values that leave [0,capacity); back_up(n) moves n to the largest member below n and reports failure when there is none; last gives the largest member.", "quantifier": "all capacities, bitmaps, shift amounts and positions", "why_tests_cant": "Unbounded capacities; 32-bit intermediate values only matter above 2^32.", "anchors": ["sources/utilities/bitmap.cpp: BitMap::operator<<=, operator>>=, back_up, last"]}
{"id": "C43", "title": "hash table exception safety", "statement": "When HashTable::match leaves by an exception, the table still satisfies its invariant: every value found before is still found under the same number and nothing else is.", "quantifier": "all tables, values and points at which an allocation can fail", "why_tests_cant": "Failure points of allocation are not exercised by tests.", "anchors": ["sources/utilities/hashtable.h", "sources/utilities/hashtable_def.h: match"]}
{"id": "C44", "title": "binary integers and histogram dump round trip", "statement": "Reading with read_bytes<n> what write_bytes<n> wrote gives back the number and leaves the rest of the input; a TallyVec written by write_to and read back by the file constructor has the same multiplicities, size and sum.", "quantifier": "all byte counts, numbers below 256^n, and histograms", "why_tests_cant": "All 2^64 values and unbounded histograms; operand evaluation order is chosen by the compiler.", "anchors": ["sources/io/basic_io_def.h: read_bytes, write_bytes", "sources/utilities/tally_def.h: write_to, TallyVec(istream&)"]}
{"id": "C45", "title": "Vectors and matrices compute as in linear algebra", "statement": "The operations of Vector and Matrix (constructors, sums, products, transposition also in place, inverses of unitriangular matrices, extraction, insertion and removal of rows, columns and blocks, row and column operations, exact division) return exactly the matrix that linear algebra over a commutative ring defines; inverses of matrices that are not unitriangular, and inexact divisions, are reported by an exception.", "quantifier": "all commutative rings of coefficients, all dimensions (zero included) and all entries", "why_tests_cant": "Dimensions and entries are unbounded; the code works with positions in one linear store, where an off-by-one error shows only for some shapes.", "anchors": ["sources/utilities/matrix.h: Vector, Matrix_base, Matrix, PID_Matrix", "sources/utilities/matrix.cpp"]}
{"id": "C46", "title": "Lattice bases", "statement": "baseChange gives the integral coefficients of vectors in terms of a basis of a full rank sublattice, and throws exactly if some vector is not in it (or the rank is not full); inverseBaseChange goes back; perp, kernel, eigen_lattice and row_saturate return a basis (spanning over the integers, and independent) of the lattice of vectors orthogonal to the columns, mapped to zero, mapped to lambda times themselves, or having a nonzero multiple in the row lattice.", "quantifier": "all integer matrices, vectors and bases of all dimensions", "why_tests_cant": "Dimensions and entries are unbounded; missing a vector of the lattice (spanning over the rationals only) does not show in any check of orthogonality.", "anchors": ["sources/structure/lattice.cpp: baseChange, inverseBaseChange, perp, kernel, eigen_lattice, row_saturate"]}
{"id": "C47", "title": "Twisted Weyl group", "statement": "A TwistedWeylGroup built from a Dynkin diagram and an involutive diagram automorphism computes in the Weyl group with that automorphism: twisting and dual twisting of elements, twisted conjugation by generators, words and elements with the correct change of length, and sorted twisted conjugacy classes. For every twisted involution, hasTwistedCommutation decides the commutation with a generator, involution_expr and canonical_involution_expr give reduced expressions (the latter the first one in lexicographic order), involutionLength is the common length of all reduced expressions, equal to the value given by the trace formula and to the least number of moves from the identity. For twisted involutions fixed by the twist extended_involution_expr gives an expression by orbits of generators and none of its assertions fails. twist_orbits lists the orbits in order and the twist can be reconstructed from them.", "quantifier": "all Dynkin diagrams of rank at most 32, all involutive automorphisms, all elements and twisted involutions of the group, all words", "why_tests_cant": "the groups are too large to enumerate for all ranks, types and automorphisms; that all reduced expressions have the same length and that descents by orbits stay fixed by the twist are theorems about Coxeter groups", "anchors": ["sources/structure/weyl.cpp: TwistedWeylGroup, Twist::Twist", "sources/structure/weyl.h: TwistedWeylGroup, Twist", "sources/structure/lietype.h: ext_gen"]}
{"id": "C48", "title": "Root system", "statement": "From every Cartan matrix of finite type the constructor of RootSystem (with either preference) succeeds, and numbers all roots and coroots obtained from the simple ones by reflections, each exactly once: negatives in the first half in mirrored order, positive roots in the second half, simple ones first, by level and then by last differing coefficient (of coroots if these are preferred). The accessors (expressions, levels, brackets, Cartan matrices of subsets, orthogonality, reflections, simple reflections, descents, ascents, sum tests, simple and positive sets, alcove walls, dominant roots) give the values these vectors have. The dual constructor gives the same numbering with roots and coroots interchanged. All coefficients and root numbers fit the types that hold them.", "quantifier": "all Cartan matrices of finite type of rank at most 32 in any numbering of the nodes, both preferences, all root numbers, and iterated duals", "why_tests_cant": "there are infinitely many matrices up to numbering, and completeness of the generated set, the ladders and the bound on levels are theorems about root systems", "anchors": ["sources/structure/rootdata.cpp: RootSystem", "sources/structure/rootdata.h: RootSystem"]}
{"id": "C49", "title": "Bases of root subsystems", "statement": "For a set of roots closed under its own reflections, simpleBasis and pos_simples return, in increasing order, the positive roots of the set that are not a sum of two positive roots of the set. These are a basis: every positive root of the set is a sum of them, distinct ones have no positive pairing, and they are linearly independent.", "quantifier": "all Cartan matrices of finite type of rank at most 32, both preferences, all subsystems, also when negative roots are not marked", "why_tests_cant": "subsystems cannot be enumerated for all matrices; roots are removed from the set while it is traversed, so that which roots are compared depends on the history of the traversal", "anchors": ["sources/structure/rootdata.cpp: RootSystem::simpleBasis, pos_simples"]}
{"id": "C50", "title": "Weyl words and roots", "statement": "permuted_root applies a Weyl word to a root and its coroot, on either side; reflection_word gives a reduced palindromic word that acts as the reflection in the root; conjugate_to_simple gives a simple root and a shortest word conjugating the given root to it; image gives the image of a set of roots; pos_to_neg the positive roots made negative by a word.", "quantifier": "all Cartan matrices of finite type of rank at most 32, both preferences, all words (reduced or not), roots and sets of roots", "why_tests_cant": "words have any length, and that words are reduced is a statement about all words with the same action", "anchors": ["sources/structure/rootdata.h: permuted_root", "sources/structure/rootdata.cpp: reflection_word, conjugate_to_simple, image, pos_to_neg"]}
{"id": "C51", "title": "Linear extension of maps of simple roots", "statement": "extend_to_roots, given roots that have the same Cartan matrix as the simple roots, returns the permutation of all roots that is linear and maps the simple roots to the given ones, and it maps coroots to corresponding coroots; root_permutation of a diagram automorphism permutes the coefficients of every root.", "quantifier": "all Cartan matrices of finite type of rank at most 32, both preferences, all images of the simple roots with the same Cartan matrix, all diagram automorphisms", "why_tests_cant": "the number of such maps is the order of the automorphism group of the root system", "anchors": ["sources/structure/rootdata.cpp: extend_to_roots, root_permutation"]}
{"id": "C52", "title": "Components and root lengths", "statement": "components splits a set of roots into its connected components for the relation of not being orthogonal; is_long_root and is_long_coroot tell whether some other coroot (root) has a pairing of absolute value at least 2 with the given root (coroot).", "quantifier": "all Cartan matrices of finite type of rank at most 32, all sets of roots, all roots", "why_tests_cant": "sets of roots cannot be enumerated; partial components are merged as roots are inspected", "anchors": ["sources/structure/rootdata.cpp: components, is_long_root, is_long_coroot"]}
{"id": "C53", "title": "Sums of roots", "statement": "root_add and coroot_add return the number of the sum of two roots (coroots) if that is a root (coroot), and the number of roots otherwise.", "quantifier": "all Cartan matrices of finite type of rank at most 32, all pairs of roots", "why_tests_cant": "there are infinitely many Cartan matrices up to numbering; the result is used where its sign does not matter, which hides a wrong sign from tests", "anchors": ["sources/structure/rootdata.cpp: lookup_root, lookup_coroot, root_add, coroot_add"]}
{"id": "C54", "title": "Additive closure", "statement": "additive_closure returns the smallest set of roots (or coroots) containing the given ones and closed under negation and under those sums that are roots (coroots).", "quantifier": "all Cartan matrices of finite type of rank at most 32, all sets of roots", "why_tests_cant": "sets cannot be enumerated; the set grows while it is traversed, and termination and completeness depend on repeated passes", "anchors": ["sources/structure/rootdata.cpp: additive_closure"]}
{"id": "C55", "title": "Strongly orthogonal sets of roots", "statement": "long_orthogonalize replaces a set of mutually orthogonal roots by one with the same product of reflections in which no two roots have a root as their sum; max_orth passes through mutually orthogonal noncompact roots of a subsystem until the roots orthogonal to them are all compact, and returns such a strongly orthogonal set.", "quantifier": "all Cartan matrices of finite type of rank at most 32, all sets of mutually orthogonal roots, all subsystems and gradings", "why_tests_cant": "sets of roots cannot be enumerated; the set is changed while it is traversed", "anchors": ["sources/structure/rootdata.cpp: RootSystem::long_orthogonalize", "sources/structure/gradings.cpp: max_orth"]}
{"id": "C56", "title": "Operations on simple_list", "statement": "Every member function of simple_list changes the sequence of elements as documented and returns the documented iterator: constructors, assignment, swap, insertion, erasure, resizing, splicing between lists and within a list, reversal of a list or range, remove, remove_if and unique. No call follows a null or dangling pointer, nodes that stay in a list keep their addresses, removed nodes are destroyed, and other lists are unchanged.", "quantifier": "all list contents, all iterators into the lists, all arguments, all other lists in the program", "why_tests_cant": "functions manipulate chains of owning pointers of unbounded length; aliasing between list positions decides what happens", "anchors": ["sources/utilities/sl_list.h: simple_list"]}
{"id": "C57", "title": "Operations on sl_list", "statement": "Every member function of sl_list changes the sequence of elements as documented and returns the documented iterator, and afterwards end() is the position after the last element and size() is the number of elements, also for functions that move nodes between lists or within a list.", "quantifier": "all list contents, all iterators into the lists, all arguments, all other lists in the program", "why_tests_cant": "the end pointer has to be adapted in exactly those cases where the last node changes; a wrong end pointer shows only in later calls", "anchors": ["sources/utilities/sl_list.h: sl_list"]}
{"id": "C58", "title": "Merging and stable sorting of linked lists", "statement": "merge and sort of simple_list and sl_list, also for ranges of an sl_list, rearrange the nodes without losing or copying any; for a strict weak order the result of merging sorted lists, and of sorting any list, is sorted and equivalent elements stay in their order, with those of the list merged into first.", "quantifier": "all list contents, all comparison functions, all pairs of disjoint ranges", "why_tests_cant": "recursion depth and lengths are unbounded; stability and the position of ranges give many cases", "anchors": ["sources/utilities/sl_list.h: merge, merge_aux, sort_next, sort"]}
{"id": "C59", "title": "Histories of linked list operations", "statement": "After any sequence of calls on any number of lists, to_vector, empty, size and length of every list report the sequence of values that results from the effects of the calls on sequences; no call follows a null or dangling pointer, and no node is leaked.", "quantifier": "all sequences of calls with positions within the lists, on any number of lists of both classes", "why_tests_cant": "sequences of calls cannot be enumerated, and a broken end pointer or counter shows only later", "anchors": ["sources/utilities/sl_list.h: simple_list, sl_list"]}
{"id": "C60", "title": "The table of Kazhdan-Lusztig-Vogan polynomials", "statement": "For a block with the relations of a block, whose Hecke module has a duality, there is one family of polynomials P_{x,y} with P_{y,y}=1, degree at most (l(y)-l(x)-1)/2 otherwise, and self-dual C_y = sum of P_{x,y} t_x. After any sequence of calls of KL_table::fill, KL_pol(x,y) returns P_{x,y} for every y below one of the limits. The only other outcome is the exception for numeric overflow, which needs a coefficient of at least a fourth of the capacity of KLCoeff; no assertion fails. The polynomials do not depend on the calls that led to the table. Assumed of the block: the coefficients are natural numbers, and P_{x,y} vanishes in the case where no recursion formula applies (Lemma 3.1 of the paper cited in kl.cpp), both theorems for blocks of real reductive groups.", "quantifier": "all blocks (also partial ones), all sequences of calls of fill with any limits, builds with and without assertions", "why_tests_cant": "blocks and columns have unbounded size; a wrong case of the recursion shows only in particular blocks, and expected values come from the same program", "anchors": ["sources/gkmod/kl.cpp: KL_table::fill, fill_KL_column, recursion_column, mu_correction, complete_primitives, new_recursion_column, mu_new_formula, first_nice_and_real, first_endgame_pair", "sources/gkmod/kl.h: KL_table", "sources/gkmod/klsupport.cpp: KLSupport", "sources/gkmod/blocks.cpp: down_set"]}
{"id": "C61", "title": "Coefficients mu of Kazhdan-Lusztig-Vogan polynomials", "statement": "After any sequence of calls of KL_table::fill, mu_column(y) lists the pairs (x,mu(x,y)) with nonzero mu(x,y) in increasing order of x, where mu(x,y) is the coefficient of degree (l(y)-l(x)-1)/2 of P_{x,y}, and mu(x,y) returns this coefficient if x<y and 0 otherwise.", "quantifier": "all blocks (also partial ones), all sequences of calls of fill with any limits, all pairs x, y with y in a computed column", "why_tests_cant": "the list is assembled from pairs found in two different ways, over columns of unbounded size", "anchors": ["sources/gkmod/kl.cpp: KL_table::mu, complete_primitives, new_recursion_column", "sources/gkmod/kl.h: mu_column"]}
{"id": "C62", "title": "The W-graph of a block", "statement": "wGraph, applied to a complete KL_table, returns a W-graph with the block elements as vertices, each labelled by its descent set; x and y are joined in both directions, with coefficient mu(x,y) or mu(y,x), exactly if one of these is nonzero, and edge lists are increasing. For a full block whose mu fit 16 bits the graph describes the Hecke module: T_s C_y is q C_y if s is in the label of y and otherwise -C_y plus the sum of mu q^{(l(y)-l(z)+1)/2} C_z over the edges from y to z with s in the label of z.", "quantifier": "all blocks, all ways to complete the table, all generators and elements", "why_tests_cant": "W-graphs of unbounded size; that the graph carries a module structure depends on all polynomials", "anchors": ["sources/gkmod/kl.cpp: wGraph", "sources/gkmod/wgraph.cpp: WGraph::WGraph", "sources/gkmod/wgraph.h: WGraph"]}
{"id": "C63", "title": "Cells of a W-graph", "statement": "cells and DecomposedWGraph partition the vertices of a W-graph into the strong components of the graph of those edges whose origin has a label not contained in that of the target. Each cell lists its vertices in increasing order and carries their labels and all edges of the W-graph inside the cell with their coefficients; the induced graph has an edge between distinct cells exactly if a directed edge joins members, and no directed edge leads to a cell with a higher number.", "quantifier": "all W-graphs", "why_tests_cant": "graphs of unbounded size; renumbering and filtering of edges must agree with the partition", "anchors": ["sources/gkmod/wgraph.cpp: WGraph::oriented_graph, cells, DecomposedWGraph::DecomposedWGraph"]}
{"id": "C64", "title": "Merging the Kazhdan-Lusztig table of a subblock", "statement": "A KL_table may swallow the table of any block that stands for a part of its own block, with other numberings of elements and reflections. After any history of calls of fill and swallow, also in the tables swallowed, KL_pol(x,y) is P_{x,y}, mu_column(y) lists exactly the nonzero mu(x,y) once each, and mu(x,y) is right for x != y, for every column present. swallow never fails an assertion; afterwards the columns present are those present before and those of the part; a later fill computes the missing ones.", "quantifier": "all blocks and parts of them, all numberings, all histories of fill and swallow", "why_tests_cant": "histories with any number of tables cannot be enumerated, and a wrong translation of indices shows only when numberings differ", "anchors": ["sources/gkmod/kl.cpp: KL_table::swallow, primitives", "sources/gkmod/blocks.cpp: common_block::swallow, check_sub_block"]}
{"id": "C65", "title": "Recognition of Cartan matrices", "statement": "For a square integer matrix of size at most 32, is_Cartan_matrix tells whether it is, up to renumbering, a block sum of the standard Cartan matrices of types A to G; no assertion fails. Cartan_matrix_type returns a type, of factors with admissible rank, and a permutation, such that the renumbered matrix is exactly the standard Cartan matrix of that type, and throws exactly for matrices that are not of this kind or not square. The entries of the Cartan matrix of a Lie type are those of the block sum. A diagram keeps the whole matrix, and its components are a valid base for the construction of the Weyl group. Not so for is_Cartan_matrix of a matrix that is not square or larger than 32.", "quantifier": "all integer matrices of size at most 32, all numberings of the simple roots", "why_tests_cant": "infinitely many matrices and a factorial number of numberings of each diagram; a walk through the diagram that starts or turns at a wrong node goes wrong for some of them", "anchors": ["sources/structure/dynkin.cpp: DynkinDiagram::DynkinDiagram, classify, type, perm, Cartan_entry, Lie_type", "sources/structure/lietype.cpp: LieType::Cartan_entry, dispatch", "sources/interpreter/atlas-types.w: Cartan_matrix_type_wrapper, is_Cartan_matrix_wrapper"]}
{"id": "C66", "title": "The Tits group", "statement": "For every root datum of finite type and rank at most 32 with an involution of its diagram, the class for the Tits group can be constructed and computes in the group that extends the Weyl group by the elements of order two in the torus, with generators that satisfy the braid relations, whose squares are the simple coroots modulo 2, and that act on the torus by the simple reflections. Multiplication and conjugation by generators, their inverses and elements of the torus, products of elements, the passage of torus elements from one side to the other, comparison, lengths, twisted conjugation and the matrix of an involution all are what they are in that group. The same holds for the constructor for adjoint groups.", "quantifier": "all root data of finite type, all twists, all elements of the Tits group", "why_tests_cant": "the group has 2^rank times the order of the Weyl group elements, and a sign wrong at one of them breaks associativity only for some products", "anchors": ["sources/structure/tits.cpp: TitsGroup::TitsGroup, push_across, pull_across, sigma_mult, mult_sigma, prod, involutionMatrix", "sources/structure/tits.h: TitsGroup, TitsElt"]}
{"id": "C67", "title": "Strong involutions in the Tits group", "statement": "For every root datum of finite type and rank at most 32 with an involution, and every base grading that is invariant under the twist, elements of the Tits group times a base strong involution can be conjugated by the Weyl group, and transformed by Cayley transforms through noncompact imaginary simple roots, so that the result is well defined up to conjugation by the torus; validity is preserved. The class for the coset computes these operations: the grading of an imaginary simple root tells whether conjugation by its generator multiplies by the element of order 2 of the coroot and does not depend on the representative; conjugation by simple reflections and words, the Cayley transform, conjugation by the base element, the test of validity and reduction to a normal form have the result stated; the inverse Cayley transform of a Cayley transform is the original element or its conjugate, up to conjugation by the torus. The subspace used for the reduction is that of the coweights sent to their opposites, modulo 2.", "quantifier": "all root data of finite type with an involution, all invariant base gradings, all elements of the Tits group, all words", "why_tests_cant": "the set of strong involutions is exponentially large and the equality holds only up to an equivalence; a forgotten sign or wrong choice of torus part shows only for some involutions", "anchors": ["sources/structure/tits.cpp: TitsCoset::TitsCoset, basedTwistedConjugate, inverse_Cayley_transform, twisted, strict_based_twisted_conjugate, is_valid, fiber_denom", "sources/structure/tits.h: TitsCoset"]}
{"id": "C68", "title": "The set K\\G/B", "statement": "Given strong involutions that are pairwise inequivalent under the torus, a table of the involutions that occur, and the right number of elements, the KGB constructor succeeds. Its elements are, each exactly once up to conjugation by the torus, the strong involutions obtained from the given ones by conjugation by the Weyl group and by Cayley transforms. cross, also with words on either side, cayley, inverse Cayley transforms, status and descents of simple roots, lengths, involutions, Tits elements, packets and lookup are those of the strong involutions; the two inverse Cayley transforms are listed in increasing order and exchanged by the cross action. Elements are sorted by length of the involution, length and code of the Weyl group element, and those with a given involution are an interval. For every root datum of finite type with an involution such a table exists.", "quantifier": "all root data of finite type, involutions, base gradings and seeds, all elements and simple roots, all words", "why_tests_cant": "the closure of a set under generators is complete and without repetition only by an invariant over the whole generation; a link that is not renumbered after the sort is wrong for some elements of some groups", "anchors": ["sources/gkmod/kgb.cpp: KGB::KGB, KGB_base::add_element, tauPacket, packet_size, cross, KGB::lookup, titsElt", "sources/gkmod/kgb.h: KGB_base, KGB", "sources/structure/gradings.h: Status"]}
{"id": "C69", "title": "Root data", "statement": "For simple roots and coroots in dual lattices whose pairings are a Cartan matrix of finite type, the RootDatum constructor succeeds, and so does that of the dual, which exchanges roots and coroots with the same numbers. root, coroot and the accessors of simple and positive ones give the combinations of simple ones with the coefficients of the root system; different numbers are different vectors, and rootIndex and isRoot find exactly those. twoRho is the sum of positive roots and takes the value 2 on simple coroots. Fundamental weights are rational combinations of roots dual to the simple coroots. radical and coradical are bases of the orthogonals. isAdjoint and isSimplyConnected tell whether the roots or coroots span a sublattice without torsion in the quotient. Reflections of weights, coweights and matrices, root permutations, and the actions of Weyl words with or without shifts are those of the reflections.", "quantifier": "all root data of finite type and all ranks of lattices, all weights, words and matrices", "why_tests_cant": "infinitely many lattices, and weights with unbounded coordinates", "anchors": ["sources/structure/rootdata.cpp: RootDatum::RootDatum, fillStatus, root_permutation, root_reflection, action_matrix, reflect", "sources/structure/rootdata.h: RootDatum", "sources/structure/prerootdata.cpp: PreRootDatum::Cartan_matrix"]}
{"id": "C70", "title": "Making weights dominant", "statement": "For every root datum of finite type, factor_dominant returns the unique dominant weight of the Weyl group orbit and a shortest word that sends it to the given weight; to_dominant returns a shortest word that makes the weight dominant; factor_codominant and to_codominant do the same for coweights. With a list of the simple roots of a subsystem they do the same for its Weyl group, and so do make_dominant and make_codominant. word_of_inverse_matrix returns a shortest word for the inverse of a matrix in the Weyl group, and reflection_word a shortest word for a reflection.", "quantifier": "all root data of finite type, all subsystems, all weights and coweights, all roots", "why_tests_cant": "weights are unbounded, and termination and minimality are statements on all words", "anchors": ["sources/structure/rootdata.cpp: RootDatum::factor_dominant, factor_codominant, to_dominant, to_codominant, reflection_word, word_of_inverse_matrix", "sources/structure/rootdata.h: RootDatum::make_dominant, make_codominant"]}
{"id": "C71", "title": "Orbits of weights", "statement": "For every root datum of finite type and every weight, Weyl_orbit lists the elements of its orbit under the Weyl group, each exactly once; Weyl_orbit_Welts lists Weyl group elements that send the weight to the elements of the orbit, one for each. The same holds for coweights, with the action on the right, and, for lists of roots whose pairings are a Cartan matrix of finite type, for the group generated by their reflections, in which case the elements listed belong to that group.", "quantifier": "all root data of finite type, all weights and coweights, all lists of simple roots of subgroups generated by reflections", "why_tests_cant": "weights are unbounded and there are infinitely many of them; the orbit is built from cosets of a chain of parabolic subgroups, and its completeness is a statement on all words", "anchors": ["sources/structure/rootdata.cpp: Weyl_orbit, Weyl_orbit_Welts, basic_orbit, extend_orbit, extend_orbit_Welts"]}
{"id": "C72", "title": "The table of involutions", "statement": "For every root datum of finite type and rank at most 32 with an involution that permutes simple roots and coroots, Cartan classes may be added to the involution table in any order and any number of times, and no assertion fails. Afterwards the table lists exactly the twisted involutions in the classes added, each once; a class is a range of successive numbers whose start, end and size operator[] gives, and Cartan_class finds the class of any number or involution. nr and involution are inverse, and numbers never change later. For each number, the matrix, the permutation of the roots, imaginary, real and complex roots, simple imaginary and simple real roots, lengths, theta_plus_1_rho, the basis of the image of 1-theta and mod_space are those of the involution; is_complex_simple, is_imaginary_simple, is_real_simple and complex_is_descent tell the type of roots. lambda_unique chooses one weight of each class modulo (1-theta)X^*; y_pack is equal for two weights exactly if the images by 1-theta differ by twice such an image; y_lift inverts it and y_act transports it. The table is fit for use by the KGB constructor. total_size gives the sum of the sizes of the classes asked for.", "quantifier": "all root data of finite type with an involution, all sequences of classes added, all involutions, roots, weights and packed weights", "why_tests_cant": "the records are propagated from one involution to the next through the whole class, so that a wrong update shows only after some path; classes are closed only by an invariant over the generation; weights are unbounded", "anchors": ["sources/structure/involutions.cpp: InvolutionData, Cayley_and_cross_part, InvolutionTable::add_involution, add_cross, lambda_unique, y_lift, Cartan_orbit::Cartan_orbit, Cartan_orbits::add, locate, total_size", "sources/structure/involutions.h: InvolutionTable, Cartan_orbit, Cartan_orbits"]}
{"id": "C73", "title": "Canonical twisted involutions", "statement": "For every root datum of finite type with an involution and every set of simple generators, whether or not the involution preserves it, canonicalize ends, and replaces a twisted involution by one for which, for the given generators, the sum of the positive real roots is dominant, that of the positive imaginary roots is dominant for the generators orthogonal to the former, and those orthogonal to both have positive images. It returns a word in the given generators that conjugates the new one to the given one; a twisted involution that already has the property is returned unchanged, with the empty word. Two twisted involutions get the same canonical form just if a product of the given generators conjugates one to the other; with all generators, just if they are in the same Cartan class. class_number returns the position of the class of a twisted involution in the list of canonical involutions; if it is not there an assertion fails, and without assertions undef_CartanNbr is returned.", "quantifier": "all root data of finite type with an involution, all twisted involutions, all sets of generators", "why_tests_cant": "that each class has only one canonical element is a statement on all pairs of elements of all Weyl groups; the code asserts nothing that would reveal two canonical forms of the same class, which would appear as two Cartan classes", "anchors": ["sources/structure/innerclass.cpp: InnerClass::canonicalize, class_number", "sources/structure/innerclass.h: InnerClass::canonicalize", "sources/structure/involutions.cpp: InvolutionData::build"]}
{"id": "C74", "title": "Cartan classes and their order", "statement": "For every root datum of finite type with an involution, the construction of an inner class ends, and lists the Cartan classes: each twisted involution is conjugate to exactly one of those listed, each listed one is canonical, the first is the identity, and the last is in the class of the longest element of the Weyl group, as is asserted. Numbers increase along the order; Cartan_ordering is a partial order, and one class precedes another just if twisted conjugations and Cayley transforms by simple imaginary roots lead from the former to the latter. Afterwards class_number finds the class of each twisted involution.", "quantifier": "all root data of finite type with an involution, with any number of Cartan classes", "why_tests_cant": "that no class is missed is a statement on all twisted involutions of all Weyl groups; that no class is listed twice rests on the uniqueness of canonical involutions; the order is a transitive closure; counters have 16 bits, and numbers of classes are not bounded by them", "anchors": ["sources/structure/innerclass.cpp: InnerClass::construct, InnerClass::C_info, class_number", "sources/structure/innerclass.h: InnerClass::Cartan_ordering, involution_of_Cartan, numCartanClasses", "sources/Atlas.h: CartanNbr", "sources/utilities/poset.cpp: Poset::new_max"]}
{"id": "C75", "title": "Unification of types", "statement": "When the interpreter unifies two complete types (without user-defined named types) under an assignment of types to type variables, the computation always ends, no earlier assignment is lost and the assignments never become circular; if it reports success, the solutions of the new assignment are exactly the solutions of the old one that make the two types equal, so that substitution then yields one and the same type for both, their most general common instance; if it reports failure the types cannot be made equal (shown for the case where the variables of the second type are new and occur once; it is not so in general); restoring the set of free variables undoes a call, successful or not.", "quantifier": "every assignment satisfying the class invariant, every pair of types, every substitution", "why_tests_cant": "Types are trees of unbounded depth with arbitrary sharing of variables; termination and generality concern all substitutions at once", "anchors": ["sources/interpreter/axis-types.w: type_assignment::unify, set_equivalent, is_free_in, renumber, substitution, polymorphics, restore_polymorphics"]}
{"id": "C76", "title": "Specialisation of type patterns", "statement": "For types with undetermined parts (without user-defined named types), specialising a type to a pattern succeeds exactly if the two have a common refinement; on success the type becomes the least specific common refinement, the same whichever of the two is taken as the pattern; on failure it may have been changed, but only to a refinement of itself. The test whether specialisation is possible predicts the result and is symmetric. Equality of types is equality of their structure.", "quantifier": "all pairs of types with undetermined parts", "why_tests_cant": "Types are trees of unbounded depth; that the result is the least common refinement speaks about all types at once", "anchors": ["sources/interpreter/axis-types.w: type_expr::specialise, type_expr::can_specialise, type_expr::operator=="]}
{"id": "C77", "title": "Overloading and argument conversions", "statement": "The closeness of two argument types tells exactly whether arguments of one type can be converted to the other, in each direction, and close types have a common source of conversions. After a function is added to the overload table it is the one found for its argument type, and nothing else changes; it is refused only because of a conflict with a present one. The variants of a name are listed with more specific argument types first and without conflicts, removal of a function leaves none for its argument type, and the function chosen for an argument that needs conversion is a best one (all three hold when conversions among the types used can be composed and closeness is inherited, and fail for some types with the coercions that the program installs).", "quantifier": "all coercion tables, all types without named types, all histories of additions and removals", "why_tests_cant": "It concerns every history of definitions, and an order relation between all pairs of types", "anchors": ["sources/interpreter/axis-types.w: is_close, coercible", "sources/interpreter/global.w: locate_overload, overload_table::add, overload_table::entry, overload_table::remove", "sources/interpreter/axis.w: search for an inexact match in overload resolution"]}
{"id": "C78", "title": "Balancing of branch types", "statement": "For complete monomorphic types, the relation by which one type accepts another is a partial order with the coercions that the program installs. Joining two types succeeds exactly if one accepts the other, and gives that one. Balancing of the branches of an expression succeeds exactly if one of the types required by the context or found for the branches accepts all of them, and all types for which balancing of an inner expression failed; it then gives that type, which is unique and does not depend on the order of the branches. Types reported in an error are among those given, and none accepts all of them.", "quantifier": "all coercion tables that satisfy two conditions, in particular the one of the program; all lists of complete types without named types or type variables to be assigned", "why_tests_cant": "It concerns all lists of types in all orders; success must not depend on the order although the algorithm goes through the list twice and forgets earlier comparisons", "anchors": ["sources/interpreter/axis-types.w: accepts, join_to", "sources/interpreter/axis.w: balance"]}
{"id": "C79", "title": "Equality of user-defined types", "statement": "Comparing two types for equality ends, whatever types have been defined before, recursive ones included. It is reflexive and symmetric, and finds types equal only if they can be made identical by expanding finitely many type definitions. It finds all such types equal, and is then transitive, unless two different recursive types can be so identified. Type definitions, simple or grouped, keep the table of types such that this holds, give each type defined the complete expansion of its right hand side, and defining types again as before ends and succeeds.", "quantifier": "all sequences of type definitions (for the positive statements those without type parameters) and all types built from the types defined", "why_tests_cant": "Recursive types can be unfolded for ever, so whether the comparison ends depends on the whole history of type definitions", "anchors": ["sources/interpreter/axis-types.w: type_expr::operator==, expanded, textually_equal, add_simple_typedef, add_typedefs", "sources/interpreter/global.w: process_type_definitions"]}
{"id": "C80", "title": "Numbering of identifiers", "statement": "The interpreter represents identifiers and file names by numbers. Looking up a string succeeds and gives a number from which the same string can be recovered; equal strings always get the same number and different strings different numbers, however many other strings are looked up before and in between; numbers are given out consecutively; and one can test whether a string has been seen before. This holds as long as the type for numbers allows it.", "quantifier": "all sequences of strings looked up", "why_tests_cant": "The table is rehashed as it grows, and what happens depends on collisions and on the number of strings so far", "anchors": ["sources/interpreter/buffer.w: Hash_table, hash, knows, do_match, max_fill"]}
{"id": "C81", "title": "Lines of input", "statement": "Reading a text by lines gives all its lines in order, whether or not the last one is ended by a newline, without trailing white space and with lines that end in a backslash joined to the next; each is reported with the number of the line of the text where it starts. Reading it by characters gives the characters of these lines, and a character put back is read again.", "quantifier": "all texts (for reading by characters those without null characters)", "why_tests_cant": "The text may have any combination of empty lines, continued lines, white space and missing newlines", "anchors": ["sources/interpreter/buffer.w: BufferedInput::getline, shift, unshift, eol"]}
{"id": "C82", "title": "Included files", "statement": "Including a file reads the file found first on the search path, with its lines numbered from 1, and then resumes with the next line of what was being read, with its proper number, also if reading is broken off. A file that is being read already is never started again, so inclusion cannot loop; a file that was read completely is not read again unless this is asked for; a file that has not been read completely is read; and including a file that cannot be found fails and changes nothing.", "quantifier": "all histories of reading, including files, breaking off and resetting; all contents of files and search paths", "why_tests_cant": "Whether a file is read depends on the whole history of files opened, completed and abandoned", "anchors": ["sources/interpreter/buffer.w: BufferedInput::push_file, pop_file, close_includes, input_record::input_record, getline"]}
{"id": "C83", "title": "Space and comments", "statement": "Between the words and symbols of a program, white space and comments are skipped, and nothing else is. A comment is enclosed in braces, may contain further braces if they are balanced, and may extend over several lines but not beyond the end of a file: if it is not closed there, this is reported and the end of the file comes next. The end of a line is white space just where a command cannot end: inside brackets, or after something that cannot be the end of a command.", "quantifier": "all texts without null characters, all states of the scanner", "why_tests_cant": "Comments may be nested to any depth, and whether a newline is white space depends on all brackets opened and closed before", "anchors": ["sources/interpreter/lexer.w: Lexical_analyser::skip_space"]}
{"id": "C84", "title": "Denotations of strings", "statement": "Every string without newline and null characters can be denoted in a program, by its text in quotes with each quote in it doubled: scanning the denotation gives back the string, and leaves what follows it. A string that is not closed is closed at the end of the line, and this is reported; there are no other cases. A string ends at the end of the file at the latest.", "quantifier": "all strings, all texts that follow, all states of the scanner", "why_tests_cant": "Strings are unbounded, and doubled quotes may be combined in any way with the closing quote", "anchors": ["sources/interpreter/lexer.w: Lexical_analyser::scan_quoted_string"]}
{"id": "C85", "title": "Identifiers, numbers and names of files", "statement": "After white space and comments, identifiers and numbers are scanned as a whole: all characters that can belong to them are taken, and none of those that follow; likewise names of files that are not quoted, which at the start of a command follow < or >, single or doubled. Scanning a name always ends.", "quantifier": "all texts without null characters, all states of the scanner, all tables of keywords", "why_tests_cant": "Names have unbounded length; that scanning ends is a statement on all continuations of the input", "anchors": ["sources/interpreter/lexer.w: Lexical_analyser::get_token, read_file_name, is_letter_etc"]}
{"id": "C86", "title": "Ends of commands", "statement": "At the end of a line, outside brackets and not after something that cannot be the end of a command, scanning gives a newline token, then one that tells that the command has ended, and then starts the next command; a newline token is given nowhere else. Each opening bracket or opening keyword starts a group, each closing one ends the innermost group if there is any, and other tokens do neither, except that the keyword in ends a group that was started by let. After a keyword that cannot end a command the command goes on at the next line. The end of a file is told wherever it occurs outside strings. Scanning a token that is not the first one of a command always ends, and takes away some of the input unless that is exhausted, and then the token is null.", "quantifier": "all texts without null characters, all histories of the scanner and of the calls by which the parser starts groups and announces type variables, all tables of keywords", "why_tests_cant": "Whether a command ends depends on all tokens since its start", "anchors": ["sources/interpreter/lexer.w: Lexical_analyser::get_token, push_nesting, pop_nesting, becomes_follows, operator_termination"]}
{"id": "C87", "title": "Type variables", "statement": "While type variables announced by the user are in scope, the scanner gives for each the position at which it was announced, counted from the outermost group that is not closed; so different ones have different numbers, all less than the number of variables announced, and the internal check that it was announced never fails. At the end of a group the variables announced in it are no longer type variables, and everything is as it was before the group.", "quantifier": "all histories of scanning, of starting and ending groups and of announcing type variables; all names", "why_tests_cant": "Groups may be nested to any depth, each with any number of variables", "anchors": ["sources/interpreter/lexer.w: Lexical_analyser::put_type_variable, push_nesting, pop_nesting, typevar_level, get_token"]}
{"id": "C88", "title": "Operator symbols", "statement": "After white space and comments, operator symbols are scanned as the longest symbol possible, each with its priority: the arithmetic operators, of one or two characters; relations, which are any sequences of the characters <, = and >; and the tilde, which before certain punctuation and keywords is a mark of reversal instead. An operator other than a relation that is followed by :=, possibly after white space and comments, forms a single token with it. After an operator other than < and > the command goes on at the next line, unless the operator follows a dot.", "quantifier": "all texts without null characters, all states of the scanner, all tables of keywords", "why_tests_cant": "Symbols can be followed by any text, with comments of any length, and relation symbols have unbounded length", "anchors": ["sources/interpreter/lexer.w: Lexical_analyser::get_token, becomes_follows, operator_termination"]}
{"id": "C89", "title": "Names of commands", "statement": "In the command interface of Fokko, a command is found by its name from the current mode: in the mode itself if it is there, and otherwise in the first of its descendants that has it, even if other names start with the same characters. If no command has the name given, and it is the start of just one name, the command with that name is found; if it is the start of several, this is told and these are listed, each once and in alphabetic order; if of none, this is told. A mode has its own commands and, of those of the mode above it, the ones it does not redefine.", "quantifier": "all trees of modes that can be built, all their dictionaries of commands, all strings given", "why_tests_cant": "Whether a prefix is unique depends on all names in the mode and its descendants; the search goes recursively through the tree and keeps a status across branches", "anchors": ["sources/interface/commands.cpp: CommandTree::look_up, CommandTree::extensions, CommandTree::add_descendant, CommandNode::add, CommandNode::addCommands", "sources/interface/commands.h: CommandNode, CommandTree"]}
{"id": "C90", "title": "Execution of commands", "statement": "In the command interface of Fokko, when the name given stands for a command known to an active mode, the modes above the first such mode are left, the modes on the way from it to the mode of the command are entered, in order and each once, and the command is executed if all can be entered; otherwise those entered before stay active, and no command is executed. A command is executed only in a mode that has it, with all modes above that one active. If no active mode knows a command for the name this is told, and if there are several they are reported; nothing changes then. Processing a command line always ends, and no internal check fails.", "quantifier": "all trees of modes, all names given, all histories of command lines and of modes left, whichever modes can be entered", "why_tests_cant": "The active modes depend on the whole history of commands, and of successes and failures in entering modes", "anchors": ["sources/interface/commands.cpp: CommandTree::run, CommandTree::has_descendant, CommandTree::activate, drop_to"]}
{"id": "C91", "title": "Folding of lines, numbers of digits", "statement": "A line that is longer than the size given is written on several lines, of which those after the first are indented as required: without the indentation these give the original line, none is empty, and all fit in the size given. Each break is at the last place allowed, which is just before or just after one of the strings given for this purpose, and where the size is exhausted if there is no such place. A line that is not too long is left as it is. The number of digits of a number is the least number of digits with which it can be written.", "quantifier": "all lines, all lists of strings at which breaks are allowed, all sizes and indentations less than the size; all numbers and bases", "why_tests_cant": "Lines have any length and hyphens may occur anywhere in them, several at the same place", "anchors": ["sources/io/ioutils.cpp: foldLine, digits"]}
{"id": "C92", "title": "Files of polynomials", "statement": "Kazhdan-Lusztig polynomials written to a file can be read again: opening the file gives the number of polynomials, the size of coefficients and their number, and for each polynomial, by its number, its coefficients, degree and leading coefficient are those written. The version that keeps degrees and leading coefficients in memory gives the same ones, whatever was asked before, and is refused just if some degree is 32 or more. Numbers written in binary are read again.", "quantifier": "all lists of polynomials that start with 0 and 1, with coefficients less than 2^32 and size less than 2^40 bytes; all histories of calls", "why_tests_cant": "Files have any number of polynomials of any degrees, and what is kept in memory depends on all earlier calls", "anchors": ["sources/io/filekl.w: write_KL_store, polynomial_info, cached_pol_info", "sources/io/basic_io_def.h: read_bytes, write_bytes", "sources/io/basic_io.cpp: put_int, read_var_bytes"]}
{"id": "C93", "title": "Files of blocks", "statement": "A block written to a file can be read again: the number of elements, the rank, the length of each element and its descents are those of the block. For each element, the list of primitive elements for its descents, computed from the file, is that of the block; and raising an element by ascents that are descents of a second one always ends, with an element that is reached by such ascents and either is primitive for the second one or is not below it.", "quantifier": "all blocks of less than 2^32-2 elements with rank at most 32 and lengths less than 256, with elements ordered by length and ascents leading upwards; all pairs of elements", "why_tests_cant": "Blocks have any size, the file has tables of variable sizes without markers, and raising takes any number of steps", "anchors": ["sources/io/filekl.w: write_block_file, block_info, block_info::primitivize, block_info::is_primitive, block_info::prims_for_descents_of, matrix_info::length"]}
{"id": "C94", "title": "Files of matrices of polynomials", "statement": "The matrix of Kazhdan-Lusztig polynomials of a block, given by the numbers of the polynomials, can be written to a file and read again: whatever was asked before, the number found for a pair of elements x and y is the one in the table for the element to which x is raised by ascents that are descents of y, if this element is below y; it is 1 if the element is y, and 0 if it is beyond y. The primitive elements for a row are found by their numbers. (The former is false of the program as it is, since the bitmap of nonzero polynomials lacks a bit.)", "quantifier": "all blocks of less than 2^30 elements that can be written, all tables of numbers of polynomials, all sequences of pairs of elements", "why_tests_cant": "The positions of rows in the file depend on all previous rows, bitmaps have any length, and what is kept about the current row depends on earlier questions", "anchors": ["sources/io/filekl.w: write_KL_row, write_matrix_file, matrix_info, matrix_info::set_y, matrix_info::find_pol_nr, matrix_info::prim_nr", "sources/gkmod/kl.cpp: KL_table::prim_map"]}
{"id": "C95", "title": "Files of progress", "statement": "From a file that tells for each row of a matrix of polynomials how many polynomials are new in that row, one finds the number of rows, the number of distinct polynomials in the rows before a given one, and for each polynomial the row in which it first occurs. A polynomial is attributed to no row just if its number is too large. A file is refused just if its size is not a multiple of the size of an entry.", "quantifier": "all numbers of rows and of new polynomials in each, in total less than 2^32; all numbers of polynomials", "why_tests_cant": "Files have any number of rows, with any number of new polynomials, possibly none in many successive rows", "anchors": ["sources/io/filekl.w: progress_info, progress_info::first_row_for_pol, progress_info::first_new_in_row, progress_info::block_size"]}
