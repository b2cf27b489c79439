# Formal model of atlasofliegroups: design

The subject is the C++ code under `/repo/sources` (utilities and structure
layers, and the types of the interpreter) at the pinned commit. The model is written in Lean 4 under
`lean/Verif/`. Property theorems live in files named `Props*.lean` (or in a
`Props` section clearly marked), apart from helper lemmas.

## Modelling conventions

* Every definition of the model carries a comment citing the file and lines it
  models. Simplifications are stated in that comment.
* Machine words whose wrap-around matters are natural numbers reduced modulo
  2^32 or 2^64 explicitly, exactly where the C++ does the reduction.
* A mutating member function becomes a function returning the new value. Loops
  become structural recursion, folds, or recursion on explicit fuel with a
  theorem that the fuel given suffices.
* Undefined behaviour and thrown exceptions are explicit outcomes (`none`,
  `Except.error`), or are excluded by explicit hypotheses on the theorem that
  are the documented preconditions of the C++ function.
* Where a property is false of the code, the negation is proved on a concrete
  witness, a `_partial` theorem states what does hold, and the disagreement is
  recorded below.

## Plan per property

| id | what is modelled | how it is proved |
|----|------------------|------------------|
| C01-C04, C06 | `big_int` digit vectors as little-endian `List Nat` (digits < 2^32), each member function loop by loop | induction on the digit list against the value function into `Int`, canonical form uniqueness |
| C05 | `sub_from` as written | negation by witness (finding F1), partial theorem for the safe cases |
| C07 | `reduce_mod`, `shift_modulo` | loop invariant for the non-restoring long division; negation by witness for finding F2 |
| C08 | bit operations | per-bit characterisation via `testBit` of the infinite expansion |
| C09 | `gcd`, `lcm` | Euclid by well-founded recursion |
| C10 | string constructor, `print`, `operator<<` | positional notation lemmas |
| C11, C12 | `power`, `big_rat` | from C03-C09 |
| C13-C17 | `arithmetic` module | 64-bit semantics made explicit; `omega`/Euclid induction |
| C18-C22 | `bits`, `BitMap`, `BitSet` | refinement to sets of naturals |
| C23 | `HashTable` as a state machine | invariant by induction over operations |
| C24, C25 | `TallyVec`, `SizeType` | refinement to exact counts / numbers |
| C26, C27 | permutations, partitions | list induction |
| C28, C29 | polynomials, `Free_Abelian_light` | refinement to coefficient functions |
| C30-C32 | `Poset`, `Preorder`, `OrientedGraph::cells` | reachability invariants |
| C33-C35 | F2 linear algebra | span invariants |
| C36, C37 | `matreduc` | recorded unimodular operations as invariants |
| C46 | `lattice` | from the results for `inverse`, `diagonalise`, `column_echelon`, `adapted_basis` |
| C47 | `TwistedWeylGroup`, `Twist` | reflection representation, exchange condition, trace of the involution on the root lattice |
| C48 | `RootSystem` | invariants of the generation by levels; positive roots have descents, strings of roots in finite groups; bounds from the Dynkin diagram |
| C49 | `simpleBasis`, `pos_simples` | order of roots is compatible with reflections; the simple roots of a subsystem are those that no smaller simple root lowers; independence by an invariant form |
| C50 | `permuted_root`, `reflection_word`, `conjugate_to_simple`, `image`, `pos_to_neg` | words act in the Coxeter group; lengths of conjugates of reflections |
| C51 | `extend_to_roots`, `root_permutation` | linearity kept along the reflections by which roots are reached |
| C52 | `components`, `is_long_root`, `is_long_coroot` | invariant of merged components; conjugation to a simple root |
| C53 | `root_add`, `coroot_add` | false (sign); what is returned is proved |
| C54 | `additive_closure` | the set inserted is closed under negated sums; counting for termination |
| C55 | `long_orthogonalize`, `max_orth` | false for sets with both signs; for positive roots by an invariant on lengths of roots |
| C56, C57 | `simple_list`, `sl_list` | model of memory with addresses of nodes and link fields; what each list holds is a representation predicate that gives the nodes of all lists, disjoint and without leaks; each function by induction along the list |
| C58 | `merge`, `sort` | merging of nodes is `mrg` on lists of nodes; stability for strict weak orders |
| C59 | histories of list calls | simulation of any sequence of calls by effects on sequences of values |
| C60 | the table of Kazhdan-Lusztig-Vogan polynomials | Hecke module with duality as specification, recursion formulas derived from it, invariant of the filled columns |
| C61 | coefficients mu | the same invariant, for the lists of nonzero mu |
| C62 | the W-graph of a block | invariant of the loop over columns; the action from the recursion formula for `(T_s+1) C_y` |
| C63 | cells of a W-graph | from strong components (C32) and iteration over partitions (C27), with the renumbering as invariant |
| C64 | `KL_table::swallow` in histories of `fill` and `swallow` | the invariant of C60 holds for the table after each step, by induction over an inductive description of all histories; the columns of the subblock are translated entry by entry; lists of mu may lose their order within a length, which the recursions do not need |
| C65 | `DynkinDiagram` constructor, `classify`, `Lie_type`, `LieType::Cartan_entry` | a diagram is a pair of lists of neighbours and labels; specification: standard Cartan matrices of types A to G and the statement that a matrix, after renumbering, is a block sum of those; proved that the walk through each component accepts exactly the standard diagrams (completeness by following the walk in a standard diagram, soundness by reading off the tests passed), and that components are connected components |
| C66 | `TitsGroup` (tits.h, tits.cpp): constructors, reflections, `push_across`, `pull_across`, multiplication by generators, `prod`, conjugation, `involutionMatrix` | over the bit vectors of C33 and the Weyl groups of C40 and C47; specification: a group is the Tits group if it is an extension of the Weyl group by (Z/2)^r with generators that satisfy the braid relations, have the given squares and act by reflections; such a group is constructed from a cocycle (the number of inversions, as in C40, lifted to coroots modulo 2), and each function of the model is proved to compute in it |
| C67 | `TitsCoset` (tits.h, tits.cpp) except `grading` and `simple_imaginary_grading` for nonsimple roots; `fiber_denom` | over C66; specification (Tits/CosetSpec.lean): conjugation by the base element is an automorphism of order 2 of the Tits group that acts on the torus by the transpose of the involution and sends each generator to the twisted one up to the element of order 2 of its coroot, as the grading says; such an automorphism is constructed from a 1-cocycle; the laws of strong involutions up to conjugation by the torus are proved from the relations, with integral coweights, and each function of the model is proved to compute the operations |
| C68 | class `KGB` with `KGB_base` (gkmod/kgb.h, kgb.cpp L95-180, L482-728) and `Status` (gradings.h); not the choice of seeds, the predicted size (a hypothesis), the Bruhat order, `global_KGB` | over C67; specification (KGB/Spec.lean): the smallest set of elements of the Tits group that contains the seeds and is closed under equivalence, conjugation by generators and Cayley transforms by noncompact simple roots, modulo equivalence.  Generation is proved complete by an invariant on the elements treated, with a normal form for reduction; the sort is a permutation that preserves links; inverse Cayley links are proved to be at most two per element from the law that an element and its conjugate are the fibre.  `C68_rootDatum` discharges all hypotheses, with a table of all twisted involutions, for root data with fewer than 2^32 elements |
| C69 | class `RootDatum` (rootdata.h L405-760, rootdata.cpp L800-1320) with `PreRootDatum::Cartan_matrix`; not the constructors for sub-data, automorphisms and quotients; `PreRootDatum` constructors not modelled | over C48-C55 (roots) and C45, C46, C36, C37 (lattices): every accessor equals the value in the specification (Datum/Spec.lean, `IsDatum`); nondegeneracy of Cartan matrices of finite type gives that different roots are different weights |
| C70 | `factor_dominant`, `factor_codominant`, `to_dominant`, `to_codominant`, `make_dominant`, `make_codominant`, each with and without generators (any list of roots whose pairings are a Cartan matrix, or the simple roots of a subsystem), `reflection_word`, `word_of_inverse_matrix` | abstract system of positive roots with reflections (Datum/Dom.lean): the number of positive coroots that are negative on the weight decreases at each step; a deletion argument gives uniqueness of the dominant weight.  False for `make_dominant` and `make_codominant` with generators (F59) |
| C71 | `Weyl_orbit` and `Weyl_orbit_Welts` (eight functions), `basic_orbit`, `extend_orbit`, `extend_orbit_Welts` (Datum/Orbit.lean) | simple roots are independent by an invariant form, so that subsets of them have systems of positive roots (Datum/OrbitMath.lean); the levels of an orbit are those of the number of negative coroots, each is found from the one below; an orbit of a parabolic subgroup is extended by coset representatives.  False for `Weyl_orbit` with generators (F59) |
| C72 | `InvolutionData` from an involution and its cross action, `Cayley_and_cross_part`, `InvolutionTable` with its records, `Cartan_orbit`, `Cartan_orbits` (structure/involutions.h, involutions.cpp); not `x_pack`, `x_equiv`, `reduce` and `real_unique`, nor the constructors of `InvolutionData` from a fibre; the canonical involution and the size of the orbit of each Cartan class, taken by the code from `InnerClass`, are a hypothesis (`IsClasses`) | over C47, C69, C45 and C67; specification (Inv/Spec.lean): the involution of the weights of a twisted involution is the action of the Weyl group element times the given involution; a record is right if all its fields are what they should be for that matrix (`IsRec`).  A fresh record is right (Inv/Fresh.lean, Inv/Cayley.lean), and the cross action turns a right record into a right one (Inv/Cross.lean, Inv/Cross2.lean); invariants for the generation of a class and for the ranges (Inv/Table.lean, Inv/Orbits.lean); packed weights from the factorisation of 1-theta (Inv/Y.lean).  `C72_kgb` connects with C68.  `total_size` ignores its argument (F60) |
| C73 | `InnerClass::canonicalize` in both forms, `class_number` (structure/innerclass.cpp, innerclass.h), `InvolutionData::build` by images of simple roots, `twoRho` of a set of roots (Canon/Model.lean); the list of canonical involutions searched by `class_number` is an argument; the number of classes is taken to be below 65535 (a `CartanNbr` has 16 bits) | over C69, C47 and C72; specification in terms of the matrix of the involution only (Canon/Spec.lean).  Uniqueness (Canon/Math.lean): an element that conjugates one canonical involution to another may be changed by real and imaginary reflections until it sends positive real roots to such, and likewise for imaginary ones; it then sends the pair of sums to the pair of sums, so lies in the stabiliser, which is generated by the simple reflections in it, where uniqueness of minimal representatives of double cosets applies (Canon/Par.lean).  No stability of the set of generators under the twist is needed.  Termination (Canon/Code.lean): first phase by the number of positive coroots negative on a large multiple of the real sum plus the imaginary sum, second by length |
| C74 | the part of `InnerClass::construct` that generates Cartan classes: `Cartan[i].tw`, `Cartan[i].below`, `Cartan_poset`, and the assertion on the last class (structure/innerclass.cpp L197-302, Canon/GenModel.lean); real forms, torus parts, `CartanClass` objects and `C_orb` are left out | over C73, C72, C30 and C19; specification in Canon/GenSpec.lean.  Each Cayley transform lowers the trace of the matrix of the involution by 2 and conjugation keeps it (Canon/GenMath.lean), so the list is sorted by trace, and a class is never found to lie below an earlier one.  Every twisted involution is reached from the identity by conjugations and Cayley transforms; every one leads to the longest element.  The identity is canonical (Canon/GenOne.lean): the sum of the positive roots fixed by a diagram automorphism is dominant.  Proved for at most 65535 classes; otherwise false (F61): `C74_generate_false`, with an instance in Canon/GenMany.lean |
| C75 | types of the interpreter as trees (without tabled types), `type_assignment`: `is_free_in`, `set_equivalent`, `unify`, `renumber`, `substitution`, `polymorphics`, `restore_polymorphics` (interpreter/axis-types.w L2439-2880, Axis/Model.lean); overload resolution, the class `type` and tabled types are left out | the references between variables are well-founded, which gives weights for termination and a resolving substitution; one statement on the outcome of a call, closed under sequencing, by induction on the number of free variables and the weights; completeness only when the variables on the right are new and occur once, negation by witness (F62) |
| C76 | `operator==`, `specialise`, `can_specialise` for types without tabled types (interpreter/axis-types.w L911-1122, Axis/Close.lean) | induction on types with one statement on the outcome of `specialise`; refinement is a partial order, which gives uniqueness and symmetry |
| C77 | `coercible`, `is_close` (interpreter/axis-types.w), the coercions installed, `locate_overload`, `overload_table::add`, `entry`, `remove` (interpreter/global.w), the search for an inexact match (interpreter/axis.w), all in Axis/Close.lean; function values are numbers; exact matches by unification, tabled types and the conversion of expressions are left out | `is_close` against inductive relations by induction on types; the outcome of `locate_overload` by induction on the list; invariant over all histories when the types are consistent; negations by witness for the coercions of the program (F63-F66) |
| C78 | `accepts`, `join_to` (interpreter/axis-types.w L5340-5430) and the passes of `balance` that work on types (interpreter/axis.w L1170-1290), in Axis/Balance.lean; monomorphic types and `type::bottom` only, no tabled types; the conversion of expressions before and after is left out | `accepts` against an inductive relation by induction on types, shown to be a partial order under conditions on the coercions, which those of the program satisfy; invariants for both passes: the common type only moves up, and a remaining conflict was compared with a type below the final one |
| C79 | the table of types, `simple_subst`, `expanded`, `operator==`, `textually_equal`, `add_simple_typedef` and `add_typedefs` with all its steps (interpreter/axis-types.w L1088-1160, L1221-1255, L1434-2033), in Axis/Tabled.lean; field names, roll back and the replacement of identifiers by numbers are left out; numbers of types are natural numbers; the cliques are those of C31 | the specification is expansion of one occurrence as a rewriting relation, shown confluent; in a well-formed table there are weights of types, by recursion on the number of types reachable, that decrease in each two steps of the comparison; counterexamples by induction on the depth of recursion |
| C80 | class `Hash_table` (interpreter/buffer.w L195-403), in Lex/Names.lean; strings are lists of character codes other than 0, the string pool is left out; the probing loops are shared with the model of C23 | invariant of open addressing as for C23, with the modulus a function of the number of strings; beyond 36864 strings the loop that enters them in a table of 32769 slots is shown not to end, by counting |
| C81 | `BufferedInput::getline`, `shift`, `unshift`, `eol` (interpreter/buffer.w L533-538, L829-1045), in Lex/Buffer.lean; lines come from `std::getline`, prompts, the readline library and history are left out | specification by the lines of a text and joining of continued lines, by recursion on the text; induction on the lines that remain |
| C82 | `push_file`, `pop_file`, `close_includes`, the constructor of `input_record` (interpreter/buffer.w L587-827), in Lex/Buffer.lean; the files are a function from path names to contents that may change from one operation to the next; the table of file names is a list | invariant of all histories: the files being read are among those seen, once each; the search for a file gives the first that exists in the list of candidates; the line at which the main input resumes is kept in the record of the outermost file; counterexamples by computation |
| C83 | `skip_space` (interpreter/lexer.w), in Lex/Lexer.lean; the input is the list of characters that `shift` gives (C81, C82), with 12 at the end of an included file and 0 when it is exhausted; characters are those of ASCII; names are lists of characters rather than numbers | comments are specified by the balance of braces in their prefixes; induction on the number of characters that remain |
| C84 | `scan_quoted_string` | induction on the string; that a string ends at the end of the file is refuted by computation |
| C85 | `get_token`, the reading of file names; the classification of identifiers by the tables of keywords, types and type variables is a function that is arbitrary | induction on the name; that scanning always ends is refuted by induction on the number of steps |
| C86 | `get_token` with the nesting stack, prompts and `prevent_termination`; values of tokens are symbolic | the effect of each kind of token on the stack, by cases; scanning ends since what remains is always a suffix of the input |
| C87 | `put_type_variable`, `push_nesting`, `pop_nesting`, `typevar_level`, `get_token` | invariant of all histories: each name in the set of type variables occurs in some group that is open |
| C88 | the cases of operators in `get_token`, `becomes_follows`, `operator_termination` (interpreter/lexer.w L620-881), in Lex/Lexer.lean | table of symbols with priorities as specification; by cases of the symbol, with the theorem on skipping of space (C83) for what comes before and after; that each operator may end a command after a dot, and that a tilde forms a token with `:=`, are refuted |
| C89 | `CommandNode::add`, `addCommands`, `CommandTree::add_descendant`, `look_up`, `extensions` (interface/commands.cpp L125-322), in Cmd/Commands.lean; modes are identified by paths in the tree, actions are numbers, the dictionaries are sorted lists | the answer is a function of the list of all commands that start with the string, in the order of the search, by induction on the tree; that a prefix of a single name suffices is refuted for all modes that have descendants |
| C90 | `CommandTree::run` (one turn of its loop), `has_descendant`, `activate`, `drop_to` (interface/commands.cpp L219-228, L328-397, L472-479), in Cmd/Run.lean; entry functions are a predicate telling which succeed; exit functions, the actions of commands and the help mode, which is not part of the tree, are left out | the loop that enters modes is shown to follow the path to the mode of the command, by induction along the path; the stack is shown to be a path from the root in every session by induction; partial: that several commands are reported is false when only a lower mode on the stack knows them (F84), and actions change the stack only by leaving modes |
| C91 | `digits` in both forms and `foldLine` (io/ioutils.cpp L32-133), in Io/Fold.lean and Io/Digits.lean; strings are lists of character codes, `size_t` is unbounded, `digits` of a `big_int` works on the model of C01-C12 | the break chosen is shown to be the last one allowed (specified in Io/FoldSpec.lean by occurrences of strings), then induction on what remains of the line; partial: with breaks after strings, lines can exceed the size (F85), and by no more than the length of such a string |
| C92 | `write_KL_store`, `polynomial_info`, `cached_pol_info` (io/filekl.w L642-855), `read_bytes`, `write_bytes`, `put_int`, `read_var_bytes` (io/basic_io_def.h, io/basic_io.cpp), in Io/Files.lean; files are lists of bytes, streams never fail, reading beyond the end is undefined | the bytes at each position of the file are determined by induction on the list of polynomials; the cache by an invariant over all histories of calls; partial: the order in which the operands of an addition in `read_bytes` are evaluated is assumed to be from left to right, and with the other order the property is false (F87) |
| C93 | `write_block_file`, `block_info` with its constructor, `primitivize`, `is_primitive` and `prims_for_descents_of` (io/filekl.w L154-354), `matrix_info::length` (L486-491), in Io/BlockFile.lean, on the blocks of the model of C60 and the bytes of that of C92; lists of primitive elements are not kept, and `upper_bound` is its result for increasing sequences | the contents of the file are determined part by part; the number of elements up to each length by an invariant of the loop; raising by induction on the distance to the second element; partial: as for C92, operands are assumed to be evaluated from left to right in `read_bytes`, and the cache of lists of primitive elements is not modelled |
| C94 | `write_KL_row`, `write_matrix_file`, the constructor of `matrix_info` for the new format, `set_y`, `find_pol_nr`, `prim_nr` (io/filekl.w L357-424, L496-597), `KL_table::prim_map` (gkmod/kl.cpp L229-238), in Io/MatrixFile.lean; a table is given by its columns; the old format is not modelled, binary searches are their results for increasing sequences | refuted for the program as it is (F88), with and without assertions; proved for a corrected `prim_map`, in which there is one more bit, for `y`: the positions of rows by induction on rows, bitmaps by induction on bits, and an invariant of the state over all sequences of questions, with and without assertions; partial, since it is proved for the corrected program only |
| C95 | `progress_info` (io/filekl.w L861-896), in Io/Progress.lean; numbers are of 32 bits, `upper_bound` is its result for increasing sequences | the numbers read are partial sums, by induction on rows; the row of a polynomial by monotonicity of these; partial: as for C92, operands are assumed to be evaluated from left to right in `read_bytes` |
| C38, C39 | `abelian`, `ratvec` | mixed radix / rational arithmetic |
| C40, C41 | Weyl transducers, numbering | every transducer the program can build (rank up to its limit 32) is evaluated by the kernel and satisfies local conditions (`Transducer.Good`); from these conditions, by induction, sequences of pieces are in bijection with the elements of any Coxeter system for the Cartan matrix |

### Weyl groups (C40, C41)

Modelled: `Transducer` construction (weyl.cpp) with its byte-sized table entries, the constructor of
`WeylGroup` from the components of the Dynkin diagram, and the public operations listed in
`Verif/Weyl/Iface.lean`.  A `WeylElt` is an array of 32 bytes.  The list of components (type, offset,
positions) is an input; `IsDynkin` states what it must satisfy, in the numbering of Bourbaki.
`Transducer::test` quantifies over all types A, B/C, D up to rank 32, E6-E8, F4, G2: this is the whole
domain of the program (constant RANK_MAX), not a sample.  Not modelled: the right hand version of
`has_descent` (in `#if 0`), the final sort of `conjugacy_class`, printing.

The exchange property of Coxeter groups that is needed for left descents and the longest element
is proved in `Verif/Coxeter/Exchange.lean`.

### Twisted Weyl groups (C47)

`Verif/Weyl/Twisted.lean` models the class `TwistedWeylGroup`, the constructor of `Twist` from orbits and `ext_gen`, on top of the model of
`WeylGroup`.  `TwistedSpec.lean` states what each method must do in a Coxeter group with an involutive automorphism θ that permutes the
generators; `TwistedProps.lean` proves it (`C47_twisted`) for every Dynkin diagram with an involutive automorphism.  The mathematics is in
`Verif/Coxeter`: the reflection representation and the sign of the images of simple roots (`Geom.lean`), twisted involutions, their
reduced expressions and the trace formula for the length of these (`Twist.lean`), orbits of generators (`TwistExt.lean`).
Not modelled: `simple_images`, `involution_matrix` and `make_twist`, which need a root system.

### Root systems (C48)

`Verif/Root/Model.lean` models the constructors of `RootSystem`, loop by loop, and `Access.lean` its accessors.  `Spec.lean` defines roots and
coroots from the Cartan matrix alone (the smallest set containing the simple ones and closed under simple reflections) and says what the
numbering and each accessor must satisfy.  The theory of roots is in `Verif/Coxeter/Roots.lean`.  The generation phase (`Gen.lean`,
`Gen2.lean`) is shown to yield all positive roots in order; it needs that levels stay below the size of the array of levels and that root
numbers differ from the value used for "not set", which follow from bounds proved for every Dynkin diagram (`Count.lean` from the length of
the longest element of the Weyl group, `Level.lean` and `Level2.lean` by type).  Not modelled: `invCmat` and `C_denom`, `type`,
`subsystem_type`, `toRootBasis`, `toSimpleWeights`.

The functions of C49 to C55 are modelled in `Access.lean` and `Access2.lean`; `Props2.lean` states the results for any object obtained from
the constructors (`Spec.System`).  Sets of roots are lists of bits; an iterator over a `BitMap` that changes during the traversal reads the
current bits, as the program's iterators do.  The specifications stand beside the proofs: `Spec.Subsystem` and `Spec.IsSimpleIn` in `Sub.lean`,
`Spec.act` and `Spec.Reduced` in `Words.lean`, `Spec.Components` in `Comps.lean`, `Spec.Closure` in `Lookup.lean`, `Spec.Orthogonal`,
`Spec.NoSums` and `Spec.drop` in `Orth.lean`, `Spec.Noncompact` in `MaxOrth.lean`.

### Matrices and lattices (C45, C36, C37, C46)

`Verif/Mat/Model.lean` models `Vector`, `Matrix_base` and `Matrix` on their row-major store, position by position.
`Store*.lean` computes each loop on stores given by an entry function; `Props.lean` states the results for Mathlib's
`Matrix (Fin m) (Fin n) R`, the link being `enc`, which lists the rows one after another.  Coefficients are elements of any
commutative ring, so overflow of machine integers is outside the model; sizes computed with 32 bits (`add_row`,
`add_column`, `eraseRow`) are reduced modulo 2^32 as in the code.  Not modelled: iterators, printing, hashing.

`Reduc.lean` and `Reduc2.lean` model matreduc.cpp and the functions of lattice.cpp that compute with integral matrices, statement by
statement, over unbounded integers.  Row and column operations are proved to be products by elementary matrices (`Embed.lean`), so
that the recorded matrices are products of these: each loop has an invariant "current matrix = row record * original matrix * column
record".  `C36_*` (PropsEchelon, PropsDiag), `C37_*` (PropsDiag) and `C46_*` (PropsLattice) are the results.  `row_clear` and `column_clear`
are not used by the program and not modelled.  In `diagonalise` and its callers a flag selects the text of line 172 (`false`: as it is,
`true`: with `^=`); only `C37_diagonalise_corrected` uses `true`.

### Finite abelian groups (C38)

`Verif/Ab/Model.lean` models abelian.h and abelian.cpp with 64-bit unsigned arithmetic; `Verif/Ab/Spec.lean` says what numbers, arrays and
bitmaps stand for (a product of `ZMod (t i)`).  The two functions that run over a bitmap while removing members from it (`quotReps`,
`cycGenerators`) are proved by one invariant (`sieve_spec`): at each stage the bitmap holds the numbers without smaller equivalent number
below the current position.  The static variables of `cycGenerators` are its state.  Bounds such as `t i <= 2^32` in the hypotheses are those
under which `arithmetic::modProd` is exact (C15).  Not modelled: messages of `modProd`.

### Rational vectors (C39)

`Verif/RatVec/Model.lean` follows ratvec.h and ratvec.cpp completely for `C = Numer_t` (the only
instance the program compiles), with the 64-bit arithmetic of the code: signed overflow is undefined,
unsigned arithmetic wraps. The specification (`Spec.lean`) is the vector over the rationals an object
stands for. The theorems say which bounds suffice; for sums only the numerators of the result must
fit, since the code adds unsigned products and converts back. Comparison uses `big_int`, modelled by
the digit vectors of C01-C06. `operator<` subtracts two temporaries, so it meets finding F1: the
difference may have a wrong value. `C05_minus_sign` proves that its sign is right all the same, for
operands of any length, which is what `C39_lt` needs.

### Linked lists (C56, C57, C58, C59)

`Verif/SL/Model.lean` models sl_list.h at the level of memory: `Mem` holds the pointer in each link
field (of a list object, of a local variable, or of a node), the contents of the allocated nodes, and
the fields `tail` and `node_count` of `sl_list` objects.  An iterator is the address of a link field,
as in the code.  Following a null pointer, or reading or destroying a destroyed node, is `undefined`.
`State m L F` (`Spec.lean`) says that object `k` holds the list of nodes `L k` (addresses and
contents), that nodes are in one place only and none is outside the lists, and that the `sl_list`
objects (`F k`) know their end and length.  `it k xs` is the iterator after the nodes `xs`.  The
theorems give the new state and the iterator returned.  `History.lean` restates them for sequences of
values, and positions given by numbers.  Not modelled: allocators that do not compare equal,
exceptions of constructors and comparisons, moved-from contents, weak iterators other than for reading,
the mirrored lists, `stack` and `queue` (which only rename functions), the comparison operators.

### Kazhdan-Lusztig-Vogan polynomials (C60, C61)

The specification (`KL/Spec.lean`) does not mention the program: a block with statuses, cross actions and Cayley
transforms; the Hecke algebra acting on combinations of its elements by the table of Lusztig and Vogan; a duality of
this module; the polynomials `P x y` characterised by self-duality and the degree bound.  From it the recursion
formulas that the program uses are derived (`KL/Hecke.lean`, `Eigen.lean`, `Recursion.lean`, `Formulas.lean`):
`T_s C_y = q C_y` for `s` in the tau invariant, and the formula for `(T_s+1) C_y` otherwise with its `mu` terms.
The model (`KL/Model.lean`) follows `klsupport.cpp` and `kl.cpp`: records of primitive elements, columns,
`recursion_column` with `mu_correction`, `complete_primitives`, `new_recursion_column`, `fill`.  Proved
(`KL/Props.lean`, from `KL/Prim.lean`, `Column.lean`, `Complete.lean`, `NewRec.lean`, `Fill.lean`): for every block, in
whatever order `fill` is called, the filled columns hold the polynomials of the specification and the lists of nonzero
`mu`, no assertion fails, and an exception is thrown only when coefficients do not fit.  `KL/Unique.lean` shows that
the specification has one solution, `KL/Example.lean` that the block of `SL(3,R)` meets all hypotheses.

Two facts of geometry are hypotheses: the coefficients are natural numbers (Lusztig-Vogan), which is part of the type
of `P`, and the vanishing used at the end of `new_recursion_column` where no formula applies (Lemma 3.1 of the
document the code cites).  Hashing of polynomials is left out here, being C23's subject.

## Trusted base

Lean's kernel, and the axioms `propext`, `Classical.choice`, `Quot.sound` (each
theorem uses a subset). No axioms are added. The faithfulness of the model to
the C++ text is by reading; the code is not executed.

## Findings

See the end of this file; it is extended while the proofs progress.

* F1 `big_int::sub_from` (bigint.cpp L305-315): wrong borrow propagation test.
* F2 `big_int::reduce_mod` (bigint.cpp L555-558): short-cut for a small dividend
  is taken too often for positive dividend and negative divisor.
* F3 `big_int::operator*=(digit)` by 0 leaves a non canonical zero.
* F4 `char_val` (bigint.h L32): letters are converted wrongly.
* F5 `Rational::operator*`: signed/unsigned mix, wrong for negative numerators.
* F6 `big_int::operator^`: returns a reference to a temporary.
* F7 `big_int::as_double`: shift of a 32-bit value by 32 or more.
* F8 `BitMap::operator>>=`/`<<=`: last word shifted the wrong way / unused bits.
* F9 `BitSetBase<2>::position`: word selection by `j>>6`.
* F10 `BitSetBase<2>::fill(limit)`, `firstBit()` of an empty set.
* F11 `HashTable`: the last number equals the `empty` marker.
* F12 `TallyVec::tally(i,mult)`: return value for a first large multiplicity.
* F13 `diagonalise` (matreduc.cpp L172): `row_minus=` where `row_minus^=` is meant: sign bookkeeping loses row swaps, so the row matrix
  can have determinant -1 (`C37_diagonalise_false`); true with the correction (`C37_diagonalise_corrected`).
* F14 `divide(Vector,c)`: negative divisor convention.
* F15 `BitMap::operator==` ignores capacity; `lcm(0,0)` divides by zero.
* F16 `Preorder::reversed` after closure.
* F17 `Homomorphism::operator*(GrpNbr)` always computes the image of 0 (`C38_hom_applyNbr_false`).
* F18 `Mod2_System::add` tests the wrong container: `eq.lhs.empty()` is evaluated just after `eq` was built with an empty left hand side, so any equation not implied by the previous ones makes the system "inconsistent" for good. `C35_consistent_false` is the witness (one unknown, equation x0=0); the `C35_repaired_…` theorem is about the program with only that test replaced by `lhs.empty()`.
* F19 `Poset(p,DualTag)` on an empty poset.
* F20 `Free_Abelian::operator-=` on itself.
* F21 `a += a` on the same `big_int` object: the equal-length branch of `add`
  reads the operand digit after it was overwritten (bigint.cpp L204-212), so the
  overflow test is defeated. The model has distinct objects.
* F22 `operator<<` for `big_int`: a leftover stream width is applied to the
  leading digit group only, giving too much padding.
* F23 `Rational::operator/=(I)`: the debug assertion tests the numerator where it
  means the denominator, so builds with assertions abort for negative numerators
  (`C16_divInt_debug_false`).
* F24 the header comment on the multiplier returned by `arithmetic::lcm` fails when
  the second argument divides the first (`C14_lcm_doc_false`).
* F25 `modProd` with a modulus above `2^32` only prints a message and goes on with
  a product that can overflow.
* F26 `BitMap::back_up` computes with 32-bit `unsigned int` (`C42_backUp_false`).
* F27 `HashTable::match` is not exception safe: the modulus is doubled before the
  allocation that can throw, and a slot is filled before the `push_back` that can
  throw (`C43_rehash_false`, `C43_push_false`).
* F28 `basic_io::read_bytes<n>` reads the stream in both operands of `+`; the
  language does not fix their order, and with right-to-left evaluation what is
  read is not what was written (`C44_*_false`).
* `big_rat` subtractions inherit F1, its quotients and remainders F2;
  `big_rat::power(INT_MIN)` negates `INT_MIN`.
* `BitMap::setRange`/`range` with `n` equal to a capacity that is a multiple of 64
  and `r=0` address one word past the end.
* F29 `TallyVec::tally(i,0)` can make `i` the largest index without a nonzero counter;
  `advance` then fails its assertion or dereferences `end()` (`C24_advance_zero_false`).
* F30 `SizeType(a)` for a number with a prime factor above 31 only prints a message
  (`error::NumericOverflow` is documented as fatal, but returns), and goes on with a wrong number;
  the same for exponents above 127, which wrap (`C25_make_unrepresentable_false`,
  `C25_mul_overflow_false`).
* F31 `SizeType(0)` loops for ever (`C25_make_zero_false`).
* F32 (not modelled) a copy of a `PartitionIterator` (as made by its post-increment) keeps
  iterators into the vectors of the original, so that using the copy after the original is gone,
  or testing it with `operator()`, is undefined; only the traversal by `++it` is modelled.
* F33 `Polynomial::operator*` and `operator*=(C)` do not adjust the size, so for coefficient
  types with zero divisors (unsigned types, "modular integers" named in the comment of the
  class) the result can have a zero leading coefficient and then differs from the equal
  polynomial in canonical form (`C28_canonical_zeroDivisors_false`).
* F34 `Safe_Poly::safeAdd` resizes before it may throw: after the exception the polynomial is
  partly changed and may have zero leading coefficients (`C28_safeAdd_throw_false`).
* F35 `Polynomial::operator/=` throws after having divided the higher coefficients
  (`C28_divAssign_throw_false`).
* F36 `factor_by_1_plus_q_to_the(k,d)` with `k>d+1` writes outside the vector
  (`C28_factorK_large_false`); its only caller uses `d>=k`.
* F37 `Free_Abelian_light::insert` merges blocks by `operator<` of the exponents instead of the
  comparison object (free_abelian_def.h L216-219); when these differ, terms get lost
  (`C29_compare_false`). All instantiations in the sources use `std::less`, so the defect is latent.
* F38 The constructor of `Free_Abelian_light` from a vector does not combine terms with equal
  exponents (`C29_duplicates_false`). The constructor from a pair of iterators
  (free_abelian.h L166-170) delegates to a constructor that does not exist, so it cannot be used.
* F39 `OrientedGraph::cells` (graph.cpp L245) forms `&*active.end()` as loop limit: the iterator
  past the end is dereferenced, which the standard does not allow (checked iterators abort), although
  without such checks only an address is computed. The model takes the address as intended.
* F40 `Subspace::basis(j)` (subquotient.h L72-76) asserts `j<d_rank`, the rank of the ambient space,
  instead of the dimension, so with assertions active an index between these is still undefined
  behaviour (`C34_basis_bound_false`).
* F41 The comment of `BitMatrix::section` exchanges the words left and right inverse; what the code
  does is a generalised inverse (`C33_section`).
* F42 `cycGenerators` (abelian.cpp L478-505) called first for the group without factors finds its
  static group of equal type and returns an empty bitmap of capacity 0 instead of the set of the
  neutral element (`C38_cycGenerators_false`).
* F43 The comment of `Homomorphism` (abelian.cpp L281-293) says entry (i,j) is component i of the
  image of generator j, and requires it to be a multiple of `t_i/gcd(t_i,s_j)`; what is computed
  multiplies by the strides of source and destination instead, so the entries mean linear forms on the
  common cyclic group (`C38_hom_entries_false`, `C38_hom_apply`).
* F44 `minus` and `subtract(GrpNbr,GrpNbr)` are declared in abelian.h and defined nowhere.
* F45 `RationalVector::operator/(Rational)` has no check for a zero divisor (its assignment version
  has an assertion): the result has denominator 0, which is noticed only if it is normalised
  (`C39_div_zero_unchecked`).
* F46 `lookup_root` and `lookup_coroot` (rootdata.cpp L733-763) return the number of the negative of the
  vector they are given, since the last conditional expression has its branches the wrong way round; so do
  `root_add` and `coroot_add` (`C53_add_false`, `C53_add_partial`).  `additive_closure` is right all the same,
  because its set is closed under negation (`C54_additiveClosure`).
* F47 `long_orthogonalize` (rootdata.cpp L791-795) tests the sign of `*it` where it takes the coefficients of
  `*jt`: for orthogonal roots of different signs an assertion fails, or the list of roots is read at a
  negative index (`C55_longOrthogonalize_false`).  `Cayley_and_cross_part` (innerclass.cpp L1288) calls it for
  roots that need not be positive; `max_orth` only for positive ones (`C55_maxOrth`).
* F48 The move constructor of `sl_list` with an allocator (sl_list.h L1165-1182) does not reset its argument if
  the allocators are equal: it has no nodes, but reports not to be empty, with its old size
  (`C57_moveCtorAlloc_false`).
* F49 `x = std::move(x)` for an `sl_list` leaves its nodes in place, but sets its size to 0 and its end to the
  beginning (`C57_assignMove_false`); for a `simple_list` it changes nothing.
* F50 `l.splice(l.cend(),l,it,l.cend())` for an `sl_list`, which should change nothing, sets the end of the list to
  the position `it`: the next `push_back` destroys the elements from there on (`C57_spliceSame_false`).
* F51 `remove(value)` of both classes goes on reading `value` after it has destroyed a node that held it, if
  `value` is a reference to an element of the list (`C56_removeValue_false`, `C57_removeValue_false`).
  `std::list::remove` allows such arguments.
* F52 `insert(pos,first,last)` of both classes, for an empty range and `pos` not at the end, returns an iterator
  to a link field of a local variable that is destroyed on return (`C56_insertRange_false`,
  `C57_insertRange_false`); so do the functions `move_insert`.
* F53 Functions of sl_list.h that cannot be compiled when they are used: `simple_list::merge` for ranges returns
  a `const_iterator` as `iterator` in one branch, `simple_list::to_vector() &&` calls `reserve` with a pointer,
  and `queue::pop_splice_to` for a `simple_list` passes an `sl_list` where a `simple_list` is expected.
* F54 `merge` of ranges of an `sl_list` exchanges the two ranges if the first begins where the second ends, so
  that of equivalent elements those of the second range come first (`C58_mergeRanges`, last part), unlike for
  other positions of the ranges.
* F55 `KL_table::mu(y,y)` returns 1, the leading coefficient of the polynomial 1, although documented to return 0
  unless `x<y` (`C61_mu_self_false`).
* F56 A `WGraph` stores coefficients as `unsigned short` (wgraph.h L49), while mu coefficients are 32 bit: a mu of 65536 or
  more is silently reduced modulo 65536, possibly to an edge with coefficient 0 (stated in `C62_wgraph`; `C62_action` needs that
  no mu is that large).
* F57 `is_Cartan_matrix` (atlas-types.w L369-382) calls the one argument `Lie_type`, which unlike the two argument one does not
  test that the matrix is square: a matrix with fewer rows than columns is read out of range, or fails the assertion (`C65_square_false`).
  Neither tests for at most 32 simple roots before shifting by more than the width of a word (`C65_size_false`).
* F58 `TitsCoset::is_valid` (tits.cpp L728-733) compares with a local variable of storage class `static`, which is the identity of the
  Tits group for which the function was first called. For a group of another rank the comparison of torus parts fails an assertion
  (`C67_isValid_static_false`). The function is not called in the sources.
* F59 `RootDatum::make_dominant(Gens g,lambda)` and `make_codominant(Gens g,lambda)` (rootdata.h L668-670, L677-679) ignore the list of
  generators and make the weight dominant for the whole Weyl group, so that the result need not be in the orbit of the weight
  (`C70_makeDominantG_false`, `C70_makeCodominantG_false`). `Weyl_orbit` with generators (rootdata.cpp L2136-2175) uses them and so returns an
  orbit that need not contain the given weight (`C71_orbitG_false`).
* F60 `Cartan_orbits::total_size` (involutions.cpp L437-443) does not use its argument, which should select Cartan classes: it asks
  `operator[]` for the numbers below the number of classes that were added. If these are not the classes added then an assertion fails
  (`C72_totalSize_fails`, `C72_totalSize_false`), otherwise the result is the size of the whole table (`C72_totalSize_partial`). The function
  is not called in the sources.
* F61 `CartanNbr` is an `unsigned short` (Atlas.h L384), and nothing bounds the number of Cartan classes, which is 65536 for the split inner class
  of 16 copies of SL(2) (the rank is allowed to be 16). Then the loops over Cartan classes in `InnerClass::construct` (innerclass.cpp L218, L258)
  never end, as the counter returns to 0 before it reaches their number (`C74_generate_false`, `C74_many`).
* F62 `type_assignment::unify` (axis-types.w L2859-2870) can report failure for types that can be unified: when the left type is a free variable
  and the right one is an assigned variable that stands for the same free variable, `set_equivalent` takes the circular reference for an
  occurs-check failure. Unifying `(A,A,B,B)` with `(C,D,D,C)` fails although all four variables may be made equal (`C75_unify_false`). With
  variables on the right that are new and occur once this cannot happen (`C75_unify_partial`).
* F63 `is_close` (axis-types.w L5279) does not recognise all pairs of types that some argument type can be converted to, contrary to the rule stated
  in L5228-5232: `int` converts to `rat` and to `Split`, but `rat` and `Split` are not close (`C77_close_false`), so a function may be
  overloaded for both, and the order of definition decides which one is called with an `int`.
* F64 Conversion of arguments is not transitive, contrary to the claim of a partial order in L5214: `vec` converts to `[int]` and `[int]` to
  `[Split]`, but `vec` does not convert to `[Split]` (`C77_transitive_false`).
* F65 `locate_overload` (global.w L580) stops at the first less specific variant and does not compare with the following ones. So a conflict may
  remain unnoticed, depending on the order of definitions: with variants for `[Split]` and `vec`, one for `[int]` is accepted, though it is
  mutually convertible with `vec` (`C77_conflict_false`).
* F66 For the same reason the variants may get out of order: after definitions for `([Split],rat)`, `(vec,int)`, `([int],rat)` the last one, though
  less specific than the second, is chosen for an argument of type `([int],int)` (`C77_order_false`). A redefinition for `(vec,int)` is then entered
  as a second variant in front, and forgetting it makes the old definition visible again (`C77_remove_false`).
* F67 `accepts` (axis-types.w L5392), which is said to be a partial order, is not transitive for types with undetermined parts: `mat` accepts `[vec]`,
  which accepts `[*]`, but `mat` does not accept `[*]` (`C78_order_false`).  For complete types it is a partial order.
* F68 Balancing chooses among the types of the branches only, as documented: for branches of types `(int,rat)` and `(rat,int)` it fails, although `(rat,rat)` accepts
  both (`C78_balance_false`).
* F69 Reloading a script with type definitions, which global.w L1702 says is meant to be possible, may not end: after `set_type [tree=[tree]]` and
  `set_type pair=(tree,int)`, repeating both makes `textually_equal` compare the two types `tree` by recursion without end (`C79_reload_false`).
* F70 Comparison of types may not end when a recursive type is defined by way of a type constructor: `set_type pp<a>=[[a]]`, `set_type [A=pp<A>]`,
  `set_type [B=pp<B>]`, and then `A` against `[B]` (`C79_loop_false`).  The entry for `A` has a component that is not in the table, which `operator==` counts on.
* F71 Equality of types is not transitive: with `set_type [A=(A,B), B=(A,B)]`, `A` equals `(A,B)`, which equals `B`, but `A` does not equal `B`, as different recursive
  types are never identified (`C79_transitive_false`).
* F72 `set_type idc<a>=a` and then `set_type [A=idc<A>]` fails the assertion "a definiens never should be tabled" (axis-types.w L2031); without assertions
  the table then defines `A` as `A`, and comparing it does not end (`C79_definiens_false`).
* F73 The table of identifiers can hold 36864 names: when one more is entered, the new number of slots 98305 is truncated to 16 bits (buffer.w L394), which leaves
  32769 slots for 36864 names, and the loop that enters them does not end (`C80_unlimited_false`).
* F74 If an included file ends with a backslash, then after its end the lines of the including file get numbers that are too large: `pop_file` restores the number of the
  line, but the next `getline` adds the number `cur_lines` of lines read from the included file (buffer.w L876, L946; `C82_resume_false`).
* F75 The same happens to standard input after reading of included files is abandoned because of an error: `close_includes` does not set `cur_lines` to 0 (`C82_abandon_false`).
* F76 A file may be skipped although it has not been read: `push_file` compares the name given, without search path, to path names of files read (buffer.w L772); after `<f`, found
  as `l/f`, the command `<"l/f"` is ignored although it would be found as `l/l/f` (`C82_found_false`).
* F77 (not in the model) `String_pool::~String_pool` (buffer.w L123) frees by `delete` a block that was allocated by `new[]`, which is undefined behaviour.
* F78 `scan_quoted_string` does not stop at the form feed that tells the end of an included file (lexer.w L314): a string that is not closed in a file that ends with a backslash goes on in the
  including file, and the token for the end of the file is lost (`C84_file_false`).
* F79 Reading the name of a file never ends if the input is exhausted, as for the input `<{` and a newline: the test by `std::strchr` (lexer.w L913) also finds the null character, so that null
  characters are added to the name forever (`C85_name_false`).
* F80 (not in the model) `std::isspace`, `std::isalpha` and `std::isalnum` are called with values of type `char` (lexer.w L232, L420, L466, L913), which is undefined behaviour for negative ones, that is for
  characters outside ASCII where `char` is signed.
* F81 Operator symbols after a dot are meant to be allowed at the end of a command (lexer.w L641-647), but `\%` and `~` set `prevent_termination` unconditionally (L806, L859): after `a.\%` or `a.~` and a newline
  the next line is taken as part of the command (`C88_dot_false`).
* F82 A tilde never forms a token with a following `:=`, since the colon is taken for the punctuation after which the tilde is a mark of reversal: the call of `becomes_follows` in that case is never
  successful (L810-821, `C88_tilde_becomes_false`).
* F83 In the program Fokko, the prefix of a command is never accepted in a mode that has descendants, even if no other name starts with it: descendants inherit the command, and `look_up` counts each
  copy of it as a further match (commands.cpp L242-243, L320), so that a message like `ty: ambiguous (type)` is given (`C89_prefix_false`).
* F84 In the program Fokko, a name that is the start of several commands, all of them known only to modes below the current one on the stack and their other descendants, is reported as `not found` rather than as
  ambiguous (commands.cpp L367-377), although the same name given in the lower mode is reported with the list of commands (`C90_ambiguous_false`).
* F85 `foldLine` (io/ioutils.cpp L114) searches for a string after which to break up to the position where the line is full, rather than where the string would still fit, so that a line can be too long by the length of that
  string; output that is broken after commas (io/output.cpp, interpreter/atlas-types.w) can have lines one longer than the limit (`C91_width_false`).
* F86 `digits` for a `big_int` (io/ioutils.cpp L44-53) does not end for negative numbers, since `shift_modulo` rounds down and -1 remains -1 (`C91_digits_negative_false`); no call with such a number was found.
* F87 `read_bytes` (io/basic_io_def.h L53, also in stand-alone programs) adds a byte read from a stream to a value obtained by reading further bytes, in one expression; C++ does not specify which operand of an
  addition is evaluated first, and a compiler that evaluates the right one first would read numbers with their bytes reversed (`C92_order_false`).
* F88 `write_KL_row` (io/filekl.w L365-399) expects of `KL_table::prim_map(y)` a bitmap with one bit more than `KL_data(y)` has entries, the last one for `y` itself, and asserts this; but `prim_map` (gkmod/kl.cpp L229-238)
  gives a bitmap of the same size. So with assertions, writing a matrix fails for every nonempty block (`C94_assertion_false`). Without assertions, as the Makefile has it by default, the file has one bit less in each row than
  `matrix_info::set_y` expects: it takes the last nonzero entry of each row for that of `y`, so that the polynomial of this entry is found to be 0 (`C94_find_false`, for the block of `PGL(2,R)`), and for rows
  without nonzero entries it accesses the last element of an empty vector (`C94_empty_false`).
