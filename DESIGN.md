# Verification design: BitLib in Lean 4

The code under study is bkille/BitLib, pinned in `/repo` (read as text, never built).
The proofs live in `/verif/lean` (Lean 4.33.0, single Mathlib modules imported where useful).
`MANIFEST.json` lists the theorems of each property; the theorems of property `Cnn` are named `Cnn_...`.

## 1. Trusted base

* The Lean kernel, and the axioms `propext`, `Classical.choice`, `Quot.sound`. No own axioms, no `sorry`/`admit`, no
  `native_decide`, no `bv_decide`.
* The hand translation from C++ to Lean described in section 3. Each Lean definition cites the file and
  lines it models and says where it simplifies.
* C++ facts taken from the standard / the ABI used by the project: unsigned arithmetic wraps, `int` is
  32 bits, `size_t`/`ptrdiff_t` are 64 bits, `float` is IEEE single precision with round to nearest even,
  `uint8_t`/`uint16_t` operands are promoted to `int`.
* Documented semantics of the external functions that are called (`std::copy`, `std::fill`, `std::reverse`, `std::vector`, streams,
  compiler builtins, vector intrinsics), each given as a small executable model. `std::` algorithms work in the element order of
  libstdc++.

## 2. Outcome of a program

### Algorithms: `M w = StateT (Mem w) (Except UB)`

* `Mem w := Int -> Option (BitVec w)`. A word address is an `Int` (word iterators are addresses); `none`
  is memory the program must not touch. A load or store there is the outcome `UB.outOfBounds`.
  All ranges passed to an algorithm live in one memory, so separate buffers, adjacent buffers,
  ranges sharing a word and overlapping ranges are all covered.
* The theorems only assume that the words *holding the ranges* are mapped, so they also hold for the memory
  in which nothing else is mapped. A proved `ok` outcome therefore means no access outside those words. The `*_footprint` theorems
  say so explicitly with `Mem.only`.
* Shift counts: `ShiftSem w` carries the promoted width `pw` (32 for 8/16/32-bit words, 64 for 64-bit) and
  what a shift by `>= pw` does: `S8`..`S64` make it the outcome `UB.overshift`; other instances return
  an arbitrary word. Theorems quantified over *every* `ShiftSem` show that no oversized shift happens. Theorems with
  `FullShiftOk` (a shift by the width is defined, with any value) show that the result does
  not depend on that value. `Unpromoted` (32/64-bit words, strict) is used for the exact failure conditions.
* `assert` failures are `UB.assertFail`, a `last` before `first` in a `std::` call is `badRange`, a negative value converted to a size is
  `badConversion`, a builtin called on an excluded argument is `undefinedBuiltin`, signed overflow is `signedOverflow`,
  an aligned vector access at an unaligned address is `misaligned`.
* Loops with a C++ condition take fuel; running out of fuel is the separate outcome `UB.outOfFuel`, and the theorems show it never
  occurs with the fuel given, which is a termination proof.
* Pointer arithmetic without dereference (`it--` past the beginning, `&*end`) is modelled as harmless. It is formally undefined in C++;
  C98 says exactly when the algorithms do it.

### `bit_vector`: `V w = StateT (Heap w) (Except Stop)`

* A heap is a memory plus the next unused address. A `std::vector` is (ptr, size, cap): exactly the first `size` words are
  accessible. An empty `std::vector` has the null pointer, address -1, which is never handed out. Storage is never reused, so a dangling pointer is `outOfBounds` for ever.
* `Policy` is how a growing `std::vector` chooses its new capacity: theorems hold for every policy that gives at least what is asked.
* `Stop` is either undefined behaviour or the exception `out_of_range`.
* `Model/Throw` runs members in `T w = ExceptT Exn (StateT (Heap w × BV) (Except Halt))`: an exception keeps heap and object as they are when it is thrown.
  `Alloc` decides for every request whether it is granted. A refused `std::vector` call changes nothing (trusted: the standard's guarantee, and libstdc++ for
  copy assignment). An exception that leaves a `noexcept` function is the outcome `terminate`.
* Algorithms called by `bit_vector` are the `M w` programs above, run on the heap's memory.

## 3. Code modelled

| Lean module | code |
|---|---|
| `Model/Basic` | memory, outcomes, shift semantics |
| `Model/Word` | `bit_details.hpp`: `_bitblend`, `_bextr`, `_shld`, `_shrd`, `_tzcnt`, `_popcnt`, `_bitswap`, `_bitexch` as used by the algorithms |
| `Model/Instr` | `bit_details.hpp`: the portable and builtin versions of `_popcnt`, `_lzcnt`, `_tzcnt`, `_pdep`, `_pext`, `_byteswap`, `_addcarry`, `_subborrow`, `_mulx`, `_bitcmp` |
| `Model/Promotion` | the word primitives again, evaluated in 32-bit `int`, under the C++17 and the C++20 shift rules |
| `Model/Iter` | `bit_iterator.hpp`, `distance`, `is_within<N>` |
| `Model/Wrap` | the iterator arithmetic again, in 64-bit machine integers |
| `Model/Ref` | `bit_reference.hpp`, `bit_pointer.hpp`, `bit_value.hpp`, access operators of `bit_iterator` |
| `Model/Stream` | `operator<<`, `operator>>` of `bit_value` and `bit_reference` over a model of `istream`/`ostream` |
| `Model/Std` | the `std::` word algorithms that are called |
| `Model/Details` | `get_word`, `write_word`, `word_shift_left/right` |
| `Model/Copy` | `copy`, `move`, `copy_backward`, `transform` (unary and binary) |
| `Model/Query` | `fill`, `find`, `equal`, `count` |
| `Model/Shift` | `shift_left`, `shift_right`, `reverse`, `swap_ranges`, `rotate` |
| `Model/Popcnt` | `libpopcnt.h`: integer loop, unrolled loop, AVX2, AVX-512, NEON |
| `Model/Cpuid` | `libpopcnt.h`: the preprocessor conditions, `run_cpuid`, `get_xcr0`, `get_cpuid`, the run-time choice of code, on a machine that faults on instructions it does not support |
| `Model/Bench` | the `BM_Bit*` benchmarks in `benchmark/src/*_bench.hpp` and `profile/src/main.cpp` as programs of calls; the benchmarks of other libraries and the times are not modelled |
| `Model/Overload` | `linear_overload.hpp`: which function is called, given which calls are well-formed for which value category |
| `Model/Hwy` | the `BITLIB_HWY` (Google Highway) branches of `fill`, `find`, `transform`, `shift_left`, `shift_right`; `reverse` in such a build |
| `Model/Helpers` | `_padded_read`, `get_word`/`write_word` between different word types, `_rotate_via_copy_begin/_end` (none of them called by the library in this form) |
| `Model/Types` | `_narrowest_type`, `_widest_type`, `_narrower_type`, `_wider_type` and the branch selection of `_addcarry`, `_subborrow`, `_mulx`; a type is its number of bits |
| `Model/Null` | the null `bit_pointer`: constructors, assignment, `operator bool`, `operator+` |
| `Model/Bytes` | words of several bytes in a memory of bytes, both byte orders; `bit_reference` operations between different word types |
| `Model/IterOps` | the remaining operators of `bit_iterator` and `bit_pointer`, `advance`, `next`, `is_within(first,last,n)`, position predicates, loops over a range, move assignment of a vector to itself |
| `Model/Vector` | `bit_vector.hpp` and the parts of `std::vector` it uses |
| `Model/Throw` | the members and constructors of `bit_vector` again, statement by statement, with an allocator that can refuse; the `noexcept` constructor from an rvalue |
| `Model/CountMem` | count.hpp once more, on words made of bytes with libpopcnt.h for the middle, and on words that are not contiguous |
| `Model/Tests` | the test suite: `test/src/test-*.cpp`, `vector_test.cpp`, the fixtures' `SetUp`; random numbers are arguments; printing and the generator are not modelled |
| `Model/Client` | code of users: trees of operations of `bit_iterator`, `bit_reference`, `bit_pointer` on numbered variables; the operations are those of `Model/Iter`, `Model/Ref`, `Model/IterOps` |
| `Model/StdAlg` | the loops of libstdc++'s `find`, `count`, `equal`, `fill`, `copy`, `copy_backward`, `swap_ranges`, `reverse`, `rotate` (random access), `transform`, written by hand as such programs; not code of the repository, and unrolling is not modelled |
| `Model/Keep` | code of users that keeps iterators, references and pointers in variables and passes them to members and algorithms; the code is that of `Model/Client` and `Call.exec` |
| `Model/Allocs` | the constructors, assignments and the destructor of `bit_vector` again, with the allocator each passes to `std::vector`; members in place are `Op.exec`. Not modelled: line 114 (declared, never defined), and that `iterator` is made from `std::vector<WordType>::iterator` without the allocator (line 87), so that `begin()` needs a library whose vector iterators do not depend on the allocator |
| `Model/Billed` | every member and constructor of `bit_vector` in `Op` again, with a count of accesses and requests; the operations of `std::vector` are billed at their usual cost |
| `Model/Cpp20` | `shift_left`, `shift_right`, `reverse`, `rotate`, `insert` and `erase` of a C++20 build (shift.hpp:27-33), with any standard library |
| `Model/Const` | which operations of `bit_iterator`, `bit_reference` and `bit_pointer` compile for which types (`const` words, `const` iterators, `const` references); memory divided into blocks. One word type; `volatile` is not modelled |
| `Model/Compile` | what the algorithms, the `const` members of `bit_vector`, `binary_digits` and type_traits.hpp demand of types; SIMD branches left out |
| `Model/Pointers` | all algorithms once more, with a check wherever a word iterator is moved; standard algorithms on words move their destination by the length of their range |
| `Model/PointersVec` | the members of `bit_vector` that move word iterators, with the same checks |
| `Model/Construct` | bit_vector.hpp:94-117, the choice of a constructor by the types of the arguments under the rules of the language. Not modelled: nested lists in braces, enumerations, floating types, classes with conversions of their own, `W` = `char` |
| `Model/Expr` | bit_value.hpp:40-127, bit_reference.hpp:45-121 and their bodies: the choice among overloaded operators and members, and the order of evaluation. Not modelled: lists in braces as operands, variables of number types, streams, enumerations, floating types |
| `Model/Lookup` | the declarations of the algorithms in bit-algorithms/*.hpp, of `distance` and `advance` (bit_algorithm_details.hpp:29-48) and of `swap` (bit_reference.hpp:107-121), and the unqualified calls of them in the headers. The declarations of `std` are those of the standard, `std::vector<W>::iterator` is that of libstdc++. Not modelled: explicit template arguments, calls inside a class with a member of that name, other associated namespaces, execution policies, overloads of `std` for special iterators |
| `Model/ConstEval` | constant evaluation of `copy`, `move`, `copy_backward`, both `transform`s, `equal`, `find`, `count`, `reverse`, `swap_ranges`, `is_within<N>` and of programs with iterators, references and pointers. Which functions are `constexpr` was read off their declarations. `fill`, the shifts, `rotate`, `next`, `is_within` with three arguments and the members of `bit_vector` are not declared `constexpr`, or need a `constexpr` `std::vector`, and are not modelled. Not modelled: Highway, user operations in `transform` (none is reached), limits of compilers on the number of steps, lifetimes and constness of the words |
| `Model/OpCalls` | both `transform`s, transform.hpp:34-212, and `std::transform` over words, with an operation that has a state and may throw. The operation does not touch the words of the ranges (so that the order in which C++ evaluates `*it` and the call makes no difference) and returns `word_type`. `std::transform` calls in order and once per word, as it does for these iterators; copying the object neither throws nor has effects. Not modelled: the Highway loop, which makes no calls |
| `Model/Release` | the algorithms compiled with `NDEBUG`: the text of `Model/Generic` with `assert` (bit_details.hpp:385, bit_iterator.hpp:178, bit_algorithm_details.hpp:110) doing nothing. Nothing is said about what such a build does where an assertion would have failed, except for `distance`: the model turns a negative distance into the size 0 there, which C++ does not. Not included: the assertions in the constructors of `bit_reference` and `bit_value` (C101) and in the helpers of rotate.hpp:40,78, and `bit_vector` |
| `Model/Generic` | the texts of `Model/Std`, `Iter`, `Word`, `Details`, `Copy`, `Query`, `Shift`, the accesses of `Ref` and the interface of `Client` again, for any monad with the operations of a memory; proved to be the same functions |
| `Props/Programs` (`example1`) | `example/src/example1.cpp`: the calls of `main` in order; writing the strings to `std::cout` is not modelled |

Specifications (nothing in them refers to the functions of the library): `Spec` (bit addresses, ranges, written ranges), `SpecRef` (references and
pointers), `SpecWord` (single words, multi-word numbers, bytes), `SpecVec` (what a vector stores), `SpecStore` (all bits of its words), `SpecActs` (programs with `resize`), `SpecClient` (a tape of bits and what the operations of iterators do on it), `SpecKeep` (positions in lists and the rules of `std::vector` for their validity), `SpecAllocs` (the allocator of each vector, the ledger, and who may be asked), `SpecCost` (the number of accesses of code, the number of bits a program touches), `SpecTrace` (the accesses of code in their order), `SpecAmort` (prices of calls on vectors), `SpecCpp20` (when a call depends on the words that `std::shift_right` vacates), `SpecConst` (read-only access to a block, programs that only read), `SpecPointers` (arrays, forbidden word iterators, the calls that leave their array), `SpecPointersVec` (the same on the heap, the insertions that leave the vector), `SpecConstruct` (what an initialisation builds, for `bit_vector` and for `std::vector<bool>`), `SpecExpr` (types and values of expressions with bits), `SpecLookup` (which arguments the functions of a namespace take, and which is called), `SpecConstEval` (which calls are constant expressions), `SpecOpCalls` (the calls `transform` makes of its operation), `SpecRelease` (what the algorithms need and do, and which calls assertions refuse), `SpecOverlap` (what copying into the source gives), `SpecThrow` (refused requests), `SpecPopcnt` (what libpopcnt reads), `SpecIso` (working with certain bits only), `SpecTests` (whole tests and what they draw), `SpecThreads` (threads that interleave word accesses), `SpecCpuid` (what a machine can execute and what it says about it), `SpecBench` (sizes and contents of the containers of the benchmarks). Property theorems are in `Props/`,
helper lemmas in `Lemmas/`.

Not modelled: overload selection other than for the constructors of `bit_vector` (C100), operators and members of bits (C101), algorithms (C102) and in `linear_overload.hpp` (C86); exceptions
other than `out_of_range`, `bad_alloc` and `length_error`; signed word types (rejected by `binary_digits`); atomics and weak memory orders (the library has no concurrency of its own; calls made by several threads are modelled as interleaved word accesses, C82); code that does not compile when
instantiated (see section 6).

The C++20 build replaces `word_shift_left/right` by `std::shift_left/right`, which leave the vacated words unspecified where the functions of the
library keep them. `Model/Cpp20` and C96 treat that build; all other properties are about the C++17 build, which `CMakeLists.txt` selects.

## 4. Specification vocabulary

`bitAt m i` is bit `i mod w` of word `i div w` (`none` if unmapped). `BitIter.addr` is `base*w+pos`. Every algorithm
theorem is stated with `bitAt` before/after, addresses and return addresses only. `Wrote m m' a b f` says that the bits of `[a,b)` are
given by `f` and that all other bits are as before. `Rep h v l` says that vector `v` stores the list `l` in words it owns.

## 5. Per property

Widths: theorems are for every `w > 0` unless said otherwise (C++ uses 8, 16, 32, 64). "Refuted" means that the negation is proved with a concrete witness;
the `_partial` theorems then cover all other cases.

| Property | Status | What is proved, and how |
|---|---|---|
| C01, C02, C05 | proved | (base, pos) or (pointer, mask) against integer bit addresses; truncating division of the code modelled with `Int.tdiv` |
| C03, C04 | proved | one bit changes, frame over all of memory |
| C06-C08 | proved | total correctness, loops by induction; every shift semantics; overlap allowed |
| C09 | proved | as C06; the result does not depend on the one oversized shift (C18) |
| C10-C13 | proved | as C06 |
| C14 | partial | refuted: an empty range dereferences `first.base()`; outcome for every memory (`C14_exact`) |
| C15-C17 | proved | as C06 |
| C18 | partial | refuted for `copy_backward`, `shift_left`, `shift_right`, `reverse`, `rotate(first,last,last)`; `C18_*_exact` give the exact inputs |
| C19 | partial | block-swap loop, invariant "the rest is a rotation of its target"; refuted when the left part is `2^32` times the right part (`unsigned int full_swaps`), there or in a later round; `C19_exact`: right for all contents iff `RotFits` (no round overflows; Euclid's algorithm on the two lengths), no case open |
| C20 | partial | refuted: wrong return value, oversized shift, access outside the range; exact condition (`C20_exact`) and the outcome of every failing case (`C20_outcomes`) |
| C21 | partial | termination for every length; composition under the condition of C19 both ways round, which `C21_exact` shows to be necessary for every length (two wrong rotations never cancel out) |
| C22-C24 | proved | as C06 |
| C25 | proved | refinement to `List Bool` |
| C26, C29, C30 | partial | refuted for 32/64-bit words: oversized shift when exactly one aligned word is moved; `*_exact` give the condition; C30 for every size: right iff nothing is erased or fewer than `2^32` elements remain |
| C27, C28 | partial | as C26, and refuted at `2^24` bits (size computed in `float`): writes past the end; `*_exact` give the condition for every size |
| C31 | partial | refuted: stale bits of the last word become elements; `C31_resize_exact` says which values appear |
| C32 | partial | refuted: the value is ignored |
| C33 | proved | list equality for every constructor, counts below `2^32` as the property says |
| C34 | partial | refuted: `word_count(unsigned)` truncates; exact: right iff `n < 2^32` |
| C35 | partial | induction over histories of operations on any number of vectors, within the limits found above; the limits are necessary |
| C36 | proved | `at()` out of range throws, whatever the memory |
| C37 | partial | below `2^31` elements; exact: `int position` overflows from there |
| C38 | proved | every policy |
| C39, C41-C44, C46, C47 | proved | bit by bit or over `Nat` |
| C40 | partial | refuted for `len == digits` on 32/64-bit words; outcome for every start and len (`C40_*_exact`) |
| C45 | partial | refuted for `cnt == 0` on 32/64-bit words; outcome for every count (`C45_*_exact`) |
| C48 | partial | proved for x86 and NEON with unaligned access; refuted for other CPUs (word loop runs past the end); exact condition |
| C49-C54 | proved | corollaries and direct proofs |
| C55 | partial | refuted at exactly `2^63` (signed product overflows); exact outcome for every input that fits |
| C56 | partial | the `int` operations are characterised by their mathematical result; proved under the C++20 shift rule; under C++17 `_bitblend` with `len = digits` shifts `int(-1)` |
| C57-C59 | proved | the vector loops are rewritten into the scalar loops by commuting independent loads and stores (equality of programs), then C10, C11, C15-C17, C23 |
| C60 | partial | buffer loop rewritten to `std::copy`, then C16/C17/C06; refuted: one word too many is written when the part starts inside a word, and the `short` counter wraps at `2^15` bits beyond the first word; `C60_*_exact` give the condition |
| C61 | proved | case split, bit by bit |
| C62 | partial | refuted for both functions; exact result of `write_word` inside one word |
| C63 | proved | induction over the word loops |
| C64 | partial | the theorems about single algorithms transported to lists through `Rep`; limits of C14, C18-C20 as hypotheses; refuted for `count` of an empty vector |
| C65 | partial | induction over programs; each call by C35 or C64, vectors kept apart by `EnvOk`; within the limits of `Call.Lim`. The elements vacated by shifts are those of C77, so the specification has one result per call and observations depend on nothing else (`C65_observations_partial`) |
| C66 | proved | instance of C65: the program is valid and within the limits, its specification is evaluated by the kernel |
| C67 | partial | induction over type lists, case split over widths; refuted: `_wider_type` never selects a wider type, `_bitcmp` returns 1 (not 0) if equal |
| C68 | partial | `_tzcnt(0)` is `digits` for every implementation; refuted for a null word pointer and for `p + 0` |
| C69 | proved | words as bytes, both byte orders; reading and read-modify-write of one bit of a multi-byte word; `C69_view` shows that an array of words of one type is the word memory of the other theorems |
| C70 | proved | address arithmetic; loops by induction over the length |
| C71 | proved | every member makes its one request before its first effect (`Tries`); otherwise its run is the run of `Model/Vector` |
| C72 | partial | induction over programs that branch on how each call ended; calls by C35 and C71; within the limits of `Op.Lim`. Refuted without them (`C72_step_refuted`); `C72_exact` and `C72_program_exact` say exactly which calls and programs are right with which allocator: a call beyond the limits is right only if its request is refused |
| C73 | proved | within the capacity no request is made and `std::vector` keeps its storage; sequences of `push_back` by induction |
| C74 | partial | refuted for the `noexcept` constructor from an rvalue, which copies; `C74_move_construct_exact` says when it ends the program; the other `noexcept` members make no request (C71, C72) |
| C75 | partial | `countMem`: `count` on bytes composed with every version of `popcnt`; right on x86, on NEON with unaligned access and for aligned 8-byte words; exact outcome for all CPUs, byte orders and word sizes; refuted for narrower words elsewhere |
| C76 | partial | `countPieces`; right if the whole words are contiguous, refuted otherwise; exact outcome for every arrangement |
| C77 | proved | `ShiftedLAll`, `ShiftedRAll`: the postconditions of C16 and C17 strengthened to all bits; the block moves inside the two functions are followed exactly |
| C78 | partial | `Isolated`: two runs on memories that agree on the given bits; corollaries of C03-C24 and C77; refuted for `shift_right`, exactly when `leaked` is not 0 |
| C79 | proved | sequencing and commutation rules for `Isolated`, for arbitrary programs; instances for concrete pairs |
| C80 | proved | `Op.Within`/`Call.Within`: the limits in terms of the state at the call; equivalence with the call being right, from the failing halves of C18, C20, C27-C34, C37, C64 and from C35, C65; by induction for operations and for programs |
| C81 | proved | a test is a list of calls, each made on the vectors and on plain lists and followed by comparisons; one induction over tests from C66 and C80, then per test: its calls are valid for all draws, and which draws shift a whole word. `C81_verdict`, `C81_both`, `C81_detects`: a verdict is the conjunction of all comparisons, for any (also wrong) result of a call |
| C82 | proved | code is a tree of word loads and stores with the effect of the procedure; threads interleave single accesses; an isolated call (C78) runs alike in the memory cut down to its own words, so its code accesses no other; invariant over executions: every thread is where its own run would be; then code is given for every algorithm. For threads that copy from the same source, the text of `copy` itself (`Lemmas/Puts`: it stores to words of the destination only). Bits sharing a word: run one thread up to its first store |
| C83 | partial | corollary of C65: a relation between calls for two widths that have the same meaning on plain lists; a shift and the assignment to the vacated elements are related as a pair. Missing: the limits of C65, as shown by `C83_limits_differ` |
| C84 | proved | the flags in closed form as a function of the registers (bit masks by extensionality), compared with what the machine can use; then C48 for the path chosen |
| C85 | proved | corollary of C65: the loop keeps the sizes of the containers, the only thing validity depends on; the results by induction on the number of iterations. `C85_small`, `C85_float` for sizes that do not work |
| C86 | partial | induction on the number of functions left; `C86_exact` gives the outcome of every call, `C86_ref_qualified` refutes the property for ref-qualified call operators |
| C87 | proved | `Store` is the list of all bits of the words and the number of elements; `Op.store` and `Act.Spec` say what each call does to it. Members by weakest preconditions on the words (`Lemmas/Store`, `Lemmas/StoreOps`), algorithms from C65 with all bits taken as elements |
| C88 | proved | `Store.Clean` (no 1 behind the elements) is kept by every calm call, and implies that `resize` is that of the standard |
| C89 | proved | A program is a tree of operations that branches on the answers (`Client`); it is run with the operations of the library and with operations on a tape `Int → Option Bool`. Every operation simulates its ideal version (`Lemmas/Client`), hence every program |
| C90 | partial | The loops of the standard library are `Client` programs (`Model/StdAlg`); their effect on the tape is computed once (`Lemmas/StdAlg`) and carried to the memory by C89. `C90_refuted` has the ranges on which only the standard algorithm works |
| C91 | proved | Programs are trees of steps (`Keeper`): operations of C89 on variables, calls of C65, and calls that take and return iterators in variables. The specification keeps lists, a lower bound of each capacity and positions `(vector, distance)`; `Fate` has the rules of validity. Induction over the run; a step on iterators is C89 on the whole memory (`simL_op`), a call is C65 plus what it does to the storage (`follows_call`). `C91_dangling` shows that the rules are needed |
| C92 | proved | Allocators are numbers, equal allocators have the same number; a ledger holds the blocks each has lent and the requests made. Giving a block to another allocator is the outcome `wrongOwner`. What `std::vector` does with allocators is written from [container.alloc.reqmts]; which allocator reaches it is the code. The contents come from C35/C65 (`AOp.plain` forgets the allocators); `LedgerOk` (the ledger is exactly the storage of the vectors) is an invariant, temporaries are extra vectors that go at the end of the call |
| C93 | proved | `Model/Generic` has the program texts for any monad with loads and stores. In `M` they are the model (`C93_text`), in `Code` they are sequences of accesses whose execution is the model (`C93_code`), and `Code.accesses` counts. The upper bounds are proved on the code for all memories, without assuming that the call succeeds; `rotate` by a potential argument over its rounds. The lower bounds for programs on iterators follow a run on the tape of C89, on which `Client.bits` counts. Counted are the accesses the text demands: a compiler may keep words in registers. Arithmetic is not counted |
| C94 | proved | `Code.trace` lists the accesses of the texts of `Model/Generic` in their order. Relational rules over pairs of runs show that the accesses of two calls agree step by step (`Lemmas/Trace`); for `find` and `equal` under the condition that the results agree, or up to a prefix, with witnesses that more is not true. `C94_words` bounds the words of any code for an isolated call (C78), `C94_stores_*` the words the text stores to (`Lemmas/Puts`). The accesses are those of the source text; branches, timing and what a compiler makes of it are not modelled |
| C95 | proved | `Model/Billed` gives every member of `bit_vector` a bill: accesses of the algorithms are counted in their text (C93), operations of the word vector are billed with a store for a new word, a load and a store for a word that is copied or moved, and a request for an allocation. `C95_text` removes the bill and gives back the programs of C35. Each vector holds credit `(2k+2) size - 2k cap`; `Lemmas/Amort` proves for each member that its bill and the new credit are covered by the old credit and the price. Prices, and the numbers of words and elements they refer to, are in `SpecAmort`. Not modelled: the bookkeeping of the allocator and of the control block, and what a compiler makes of the code |
| C96 | proved | `Model/Cpp20` has the five algorithms and members that reach a word shift again, with `std::shift_left` and `std::shift_right`; an adversary (`Vacated`) writes the vacated words after each move. `shift_left` overwrites or lies behind everything the adversary touches; `shift_right` is the old `shift_right` followed by the adversary (`shiftRight20_eq`), from which the exact conditions follow. For the converse the adversary complements the words (`Vacated.flip`). `C96_refuted` is a concrete wrong insertion. The limits of C19 and C35 are hypotheses and part of the statement. Scalar build only |
| C97 | proved | `Model/Const` types the programs of C89: a rule per operation says what its declaration and body demand, and the run is that of the untyped program. The memory is divided into blocks and access outside the block of a handle is undefined, as pointers to other arrays are in C++; without this no type system could protect a word. `C97_const` is an invariant: handles of the block keep `const` types, and stores demand others. `C97_blocks` and `C97_one_block` tie the divided memory to the plain one. `Model/Compile` lists the demands of the algorithms, of members of `const` vectors and of the traits; the theorems give the closed conditions. What the compiler does is trusted to be what the rules say: they were read off the headers, and no compiler was run |
| C98 | proved | `Model/Pointers` is the text of every algorithm with a check at each place where the code moves a word iterator; `C98_text` shows that the checks change nothing else. For the good ranges the checked run is shown equal to that of the model by a logic of postconditions on positions (`Fits`); for the bad ones it is shown never to complete (`Stuck`), so that it stops at a check whenever the model completes. Both together make the conditions exact |
| C99 | proved | `Model/PointersVec` is the text of the members with the checks of `Model/Pointers` on the words of the vector at the time and on the array of the source range; `C99_text` shows that the checks change nothing else. The rules of C98 are lifted to the heap; the sizes after growing come from `FloatOk` as in C27. The case of `insert` is the case of `shift_right` in C98, rewritten in terms of positions and lengths |
| C100 | proved | `Model/Construct` has the declarations of the constructors, the implicit conversions and their ranks, the choice of the best viable function, the two phases for lists in braces, narrowing, and what the bodies demand; a selected constructor runs as in `Model/Vector`. `SpecConstruct` is a table by the shape of the arguments and says nothing of overloads. The resolution is computed by number and kinds of arguments; for lists of any length the rank of a list is the worst of its elements |
| C101 | proved | `Model/Expr` resolves an expression to calls by candidates, conversions and their ranks, and by what the bodies demand, then runs the calls on the memory of words. `SpecExpr` has a table of types without overloads, and an evaluation with booleans on a map of bits. Proof by induction on the expression, from the tables of resolved calls (`Lemmas/Expr`) and the properties C03, C04, C54 of the members |
| C102 | proved | `Model/Lookup` lists the templates of `bit` and of `std` with the shapes of their parameters, and follows the language: associated namespaces, deduction, ranking of conversions, partial ordering. `SpecLookup` says which arguments each namespace takes and which is preferred. Proof: one lemma on viability per shape of template, then the choice between two. The results for a reference as the value by C89 and induction on the loops of `std`; what compiles by C97 |
| C103 | proved | `Model/ConstEval` is the text of each function again, with the checks of C98 and a stop at every call of a function that is not `constexpr`. `SpecConstEval` says in which cases no such call is reached, by addresses and bits. Proof: where no call stops the evaluation it is the checked program of C98, which never leaves the array there; elsewhere no path avoids the call. Programs by C89, each check being a condition on a position of the tape |
| C104 | proved | `Model/OpCalls` is the text of both `transform`s again with the operation as a call that may change a state and throw; functions that take it by value work on a copy. `SpecOpCalls` says the same by addresses of bits: pieces, the word each call is given, what is written. Proof: exact result of `get_word` including the bits beyond; one lemma for "read, call, write"; induction over the words; with pure operations the program is that of C23 and C24, by equations |
| C105 | proved | `Model/Release` reads the text of `Model/Generic` in a monad whose `assert` does nothing. `SpecRelease` has what each call needs and does, and which calls are refused. Proof: one rule for each construct and one lemma for each function ("an assertion fails or both do the same"), as for C82. Which assertions fail: a failing assertion still fails if all missing words are added to the memory, and there the theorems about each algorithm say that the call ends or shifts too far. For `copy_backward` and `swap_ranges`, whose theorems exclude some overlaps, and for `get_word` and `write_word`, `Lemmas/NoAssert` goes through the code instead: whatever is read and written, no assertion is reached with a false condition |
| C106 | proved | `SpecOverlap` says what each bit of the destination becomes, by recursion to the left. Proof: from the pieces of C104 with a pure operation, by induction over the pieces; `copy` and `move` are `transform` with the identity; for `copy_backward` the loop is followed directly. Which overlaps are right: a memory with a single one, at a bit that is read too late, tells the results apart |

## 6. Findings in the code

Undefined behaviour or wrong results, each with a theorem:

* `_bitblend`/`_bextr` with `len == digits`, `_shld`/`_shrd` with `cnt == 0`: shift by the word width on 32/64-bit words (C40, C45). It reaches
  `copy_backward`, `reverse`, `shift_left`, `shift_right`, `rotate`, and through them `bit_vector::insert`/`erase` (C18, C26, C29, C30).
* `count` on an empty range reads a word, for an empty vector through the null pointer (C64); `find` and `reverse` on an empty unaligned range do too (C14, C11, C15).
* `rotate(first, last, last)` (C20), `unsigned int full_swaps` (C19).
* `bit_vector`: `insert(pos,count,v)`/`insert(pos,first,last)` compute the new size in `float` (C27, C28); `word_count(unsigned)` (C34); `resize` leaves stale
  bits and `resize(n,v)` ignores `v` (C31, C32); `debug_string` counts in `int` (C37).
* C++20 build: `shift_right`, `rotate` and the bulk `insert`s use the contents of a word that `std::shift_right` may leave in any state, when they shift by whole words
  from inside a word (C96). Known standard libraries keep the word.
* `bit_vector(first, last, alloc)` for ranges of `bool` or words loses `alloc` unless it propagates on move assignment; the constructors from `const bit_vector&&` copy
  (`C92_range_argument`, `C92_move_constructor`).
* `_rotate_via_copy_begin/_end` write past their buffer (C60); `write_word` with a narrower source clears destination bits, `get_word` with a wider type
  always asserts at its default length (C62); the comments of `word_shift_left/right` promise zero filling that is not done (C63).
* `_wider_type` recurses into `_narrower_type`, so the wider-type branches of `_addcarry`, `_subborrow`, `_mulx` are dead code; `_bitcmp` returns 1 if equal, its
  comment says 0 (C67). A `bit_pointer` made from a null word pointer is not equal to the null `bit_pointer`, and adding 0 to a null `bit_pointer` moves its word
  pointer; the comment of its `operator bool` is the wrong way round (C68).
* `distance` of a reversed range fails its assertion, its comment promises a negative value (C01, C70); `v = std::move(v)` empties `v` (C53).
* The `noexcept` constructor of `bit_vector` from an rvalue takes `const bit_vector&&`, so it copies the words, and ends the program if that fails (C74). The
  constructors from a string, from `bool`s and from bits request one word per bit (C71).
* `libpopcnt.h`: the word loop over-reads after the alignment loop on CPUs without a dedicated path (C48). It reaches `count` on words narrower than 8 bytes (C75).
* `count` accepts any random access iterator but hands `&*it` to libpopcnt as if the words were contiguous; with a `std::deque` it counts other memory (C76).
* `shift_right` by a whole number of words of a range that starts inside a word moves that whole word: the bits before the range end up inside the range, among
  the vacated bits (C77, C78). The standard leaves those bits unspecified, so this is allowed, but it discloses data from outside the range.
* a program can be defined with one word type and undefined with another: erasing the first of 32 elements with 32-bit words (C83). The elements vacated by a shift and the
  text of `debug_string` differ between word types.
* `get_cpuid` of libpopcnt.h asks for leaf 7 without checking that there is one, and drops the POPCNT flag if the operating system has not enabled XSAVE (C84).
* BM_BitShiftLeft and BM_BitShiftRight would be undefined at a size of one word, and `ceil(float(total_bits) / digits)` makes containers that are too small
  for some sizes that `float` cannot represent; the registered sizes are unaffected (C85).
* `linear_overload` probes whether a call is valid on an rvalue and makes it on an lvalue: a function callable only as an lvalue is passed over, one callable only
  as an rvalue does not compile (C86).
* different bits of one word cannot be written concurrently, nor can one be read while another is written: every code races and an update can be lost (C82). As for
  `std::vector<bool>`, but the library does not say so; ranges given to different threads have to be cut at word boundaries.

Word iterators moved out of their array, without being dereferenced (C98):

* `copy_backward` to the beginning of an array, `shift_right` from its first word, and with it `reverse` and `rotate`, decrement a word iterator that is at the first word;
* `shift_left` and `shift_right` form `first + n` and `last - n` before they compare `n` with the length, so that a shift by more than the length leaves the array;
* `count` of the last bits of an array takes the address of the word at its end, with no words to count.

* `bit_vector::insert` shifts from `begin() + d`, so inserting in the first word of a vector of two words or more does the same (C99; `C99_insert_front`: at the front always, from two words of elements on).

* The constructor `bit_vector(std::initializer_list<bit_value>)` has a body that does not compile (252-258: `const_reference b : init` would bind a `bit_reference` to a `bit_value`), so `bit_vector<W> v{bit1, bit0}` is an error for every `W` (`C100_bit_list_refuted`). The constructor at line 114 is not defined.
* `bit_vector<W> v(n, true)`, `v(n, 0)` and `v{1, 0, 1}` do not compile either; `v{n}` with a word `n` holds the bits of `n`; before pointers became narrowing `v{"101"}` held one bit (C100). The README says that the normal `vector` constructors are there.

* `std::swap(r, q)` of two named references compiles and loses a bit: both bits become the second (`C101_std_swap_refuted`). The overloads of `swap` in namespace `bit` exchange them.
* `bit_value(2u)` is zero and `bit_value(bool(2u))` is one, likewise `r.assign(2)` and `r.set(2)` (`C101_low_bit`). `bit_value(1)` does not compile, nor `r == 1`, `r = 0`, `r == !q` (`C101_no_signed`, `C101_no_mixing`, `C101_no_chain`).

* `using std::swap; swap(r, q)`, the way the standard recommends to swap, is ambiguous for two named references of one type (`C102_swap`).
* `fill(v.begin(), v.end(), v[0])` without `bit::` runs the loop of `std`, bit by bit (`C102_value_is_ref`); the result is the same (`C102_fill`, `C102_find`, `C102_count`), but not for `count` on an empty range (`C102_count_refuted`).
* `copy(first, last, d)` from iterators to `const` words does not compile unqualified, even where `std::copy` does (`C102_const_source`).

* `copy`, `move`, `copy_backward`, `transform` and `equal` are declared `constexpr`, but a call is a constant expression for an empty range only, since `distance` is not `constexpr` (`C103_copy`, `C103_equal`). `count`, `find`, `reverse` and `swap_ranges` are in some cases (`C103_count`, `C103_find`, `C103_reverse`, `C103_swap_ranges`).

* The operation of `transform` is given bits that are not in the range, and the result may depend on them (`C104_outside`). A function object with data of its own behaves differently for sources that are aligned like the destination, since `std::transform` gets a copy (`C104_own`).

* `find` does not check that its range is not reversed; all other algorithms do (`C105_find_unchecked`, `C105_find_exact`, `C105_find_reversed`, `C105_exact`).

The test suite (C81):

* `CopyBackward`, `Reverse`, `ShiftLeft`, `ShiftRight`, `InsertAtBegin*`, `InsertAtRand*`, `EraseAtBegin*`, `EraseAtRand*` shift a whole word for draws in range, which is
  undefined for 32- and 64-bit words; `InsertAtBegin1` does so whatever it draws.
* `Rotate` draws `middle` up to the last element, never `end()`, so it cannot find C20. `Copy` and `Move` can draw a destination equal to the source, which `std::copy`
  excludes.
* the `VectorTest` fixture copies `word_size` bytes, not words, so at most the first `word_size` bytes of a vector are random.
* `ShrinkToFit` removes a word of elements from vectors that can be shorter than a word: `length_` wraps below 0. Its expectation holds exactly if the library honours the
  non-binding `shrink_to_fit`.
* `uniform_int_distribution<uint8_t>` is not among the types allowed by the standard.

What does not compile though it should (C97, by the rules of `Model/Const` and `Model/Compile`):

* `++`, `--`, `+=`, `-=` and assignment of `bit_vector::const_iterator`, which wraps a `const` iterator; so neither a range-based `for` over a `const` vector nor any algorithm
  on it;
* `operator[]`, `at`, `front` and `back` of a `const` vector: a reference to a `const` word is converted to a reference to a word;
* `copy`, `copy_backward`, `move` and `equal` with `const` words in the source: `get_word<const W>` assigns to a variable of its type;
* `shift_left`, `shift_right`, `reverse`, `rotate` for pointers to words before C++20: `word_shift_left` names `RandomAccessIt::difference_type`;
* assignment between `bit_iterator`s or `bit_pointer`s of different types: the templates read private members of another class.

And what compiles though it should not: `bit_vector::const_reference` is `const bit_reference<W>`, a copy of which can be written through (`C97_const_reference`).

Observed by reading, not modelled because the code is never instantiated or does not compile when it is:

* the branch of `write_word` for a destination narrower than the source (`_bitblend` is called with arguments of different types, so deduction fails);
* `bit_value::swap(bit_reference)` (C101: no call of it compiles), the constructor from an initializer list of `bit_value` (C100 shows that nothing calls it), `debug_string(first,last)`;
* the overloads of `_bextr`, `_pdep` and `_pext` for CPU instructions: their `decltype` calls the instruction with the wrong number of arguments, so they are never
  selected;
* `popcnt64_unrolled`, which is called on some platforms but not defined.

## 7. Testing the theorems

`seeded/LOG.jsonl` records wrong versions of the modelled code (one per line): the definition, the edit, the claim it breaks, the theorems that no longer check,
and the theorems that were tightened because they still did.
