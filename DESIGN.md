# Formal model of ot/succinct in Lean 4 — design

## 1. What is modelled and how

The Lean project is in `lean/`.  Layout:

| directory | content |
|---|---|
| `Verif/Spec/*.lean` | small, self-contained specification vocabulary (ranks, selects, excess, balanced parentheses, leftmost minimum, ...) over plain lists; knows nothing of the model |
| `Verif/Model/*.lean` | the model of the C++ code, function by function; every definition cites file:lines |
| `Verif/Lemmas/*.lean` | helper lemmas |
| `Verif/Props/*.lean` | the property theorems (`C01_...`), each with a non-vacuity example |

### 1.1 Modelling conventions

* **Machine words** (`uint64_t` used as bits) are `BitVec 64` (`Word`), so wrap-around of `+ - * <<` is modelled exactly.
* **Positions, sizes, counters** (`uint64_t`/`size_t` used as numbers of in-memory bits) are `Nat`.  They are bounded by memory, so overflow *upwards* cannot occur; *downwards* wrap is never silently truncated: where the C++ subtracts sizes the model uses the checked `subU`, whose result is `none` if the C++ would wrap, or the code works with `Word`.
* **Values** stored by the user (Elias-Fano values, gamma values, ...) are `Nat` with explicit bounds in the theorems, or `Word`.
* `int32_t` excesses are `Int` passed through the explicit truncation `toI32`; `int16_t`/`uint16_t`/`uint8_t` narrowing casts are modelled explicitly as well.
* **Undefined behaviour is a distinct outcome.**  Functions that may go wrong return `Option α`; `none` means: an out-of-bounds read/write, an `assert` that fails, a shift by >= 64, an unsigned wrap in size arithmetic, use of a dangling pointer, or a loop which does not terminate within the (sufficient) fuel.  A theorem `f args = some r` therefore also states memory safety and absence of assertion failures for that call.
* The three places where the source evaluates a shift by exactly 64 and then masks the result away (`get_bits` with `len == 64`, `find_close`, `find_open` at word boundaries) are formally UB in C++.  There the model takes an *oracle* argument for the value of the over-wide shift, and the theorems hold for every oracle.
* A function mutating `this` returns the new state; loops are structural or fuel recursion (the theorems show that the fuel suffices).
* `mappable_vector<T>`/`std::vector<T>` are `List`s in the data-structure models; ownership, deleters and the byte image are modelled separately (`Mapper`, `Ownership`).

### 1.2 Build configuration

Default CMake configuration: `SUCCINCT_USE_INTRINSICS=ON`, `SUCCINCT_USE_POPCNT=OFF`.  Compiler intrinsics (`__builtin_ctzll`, `__builtin_clzll`, `__builtin_bswap64`, `_mm_popcnt_u64`) are modelled by their documented meaning (trusted); the portable code paths are modelled literally and proved equal to them.

## 2. Properties: what is modelled, how it is proved, outcome

All property theorems are in `Verif/Props`; exact names per property are in `MANIFEST.json`.  "false" means: the
English claim does not hold of the code; a theorem with suffix `_false` gives a concrete witness (or a whole family)
and a theorem with suffix `_partial` proves the claim on the part where it holds.

| id | model | proof | outcome |
|---|---|---|---|
| C01 | `Builder` state machine; histories are syntax trees (`Prog`), `append` takes another history | invariant (words represent the list, padding zero, `m_cur_word` points at the last word whenever it will be used), induction on histories | proved; `reserve` included while the size is a multiple of 64, otherwise dangling pointer (`C01_reserve_false`) |
| C02 | range constructor loop | loop invariant | proved |
| C03, C04 | `getBits`, `getWord`, byte-level `getWord56` | bit extensionality | proved (any value of the undefined shift) |
| C05, C06 | `predecessor0/1`, `successor0/1` loops | induction on words | proved, including exactly when the call fails |
| C07 | `Enum` state machine, histories | invariant "buffer = next `avail` bits" | false for `skip_zeros()` after a `take(64)` that returned something else than 0; proved for all other histories; there it is proved what the code answers and when that is right (`C07_stale_partial`); all histories in C78 |
| C08 | `UEnum` state machine, histories | invariant on buffer and position | false for `next(); skip0(k)`; proved for all other histories; with `position()` after each call right exactly for those (`C08_unary_exact_partial`); all histories in C77 |
| C09-C13 | literal broadword code on `BitVec 64` | digit-list (`pack`) representation, no-carry lemmas; tables by kernel `decide` over the whole table | C09-C12 proved; C13: `leq_step_8`/`uleq_step_8` are not general comparisons (false for arbitrary bytes), each field right just if the proved range condition holds, the rest proved |
| C14-C17 | `RSBitVector`: index construction, hints, rank, select, select0 | index invariant, binary search invariant, hint invariant, 9-bit parallel comparison | proved |
| C18 | `Darray` construction (both getters) and select | invariant on the inventories, overflow blocks included | proved |
| C19 | `Darray64` builder and select | same | proved |
| C20-C25 | `EliasFano` builder, queries, enumerator | unary high part + low part; monotone sequence lemmas | proved; sharp limits as separate theorems (`C21_wrap_false`, `C22_universe_false`) |
| C26, C27 | list wrappers | from C20/C23 | proved; sharp limits `C26_sum_sharp`, `C27_max_rejected` |
| C28-C30 | gamma vectors and enumerators | from C19, C03, C07, C08 | proved; `C28_max_rejected`, `C29_max_rejected` |
| C31-C35 | `BpVector`: byte tables, in-word, in-block, block minima, min tree, rmq walk | excess function, range-min tree invariant; balance by an independent grammar (`Spec.Parens`) | proved below 2^31 bits |
| C36, C37 | `CartesianTree` builder and rmq, any comparator | stack heights = excess at zeros; leftmost minimum = last minimal height | proved |
| C38, C39 | `TopK`; `std::push_heap/pop_heap` by their standard contract (`HeapOps.Valid`) | disjoint intervals invariant | proved |
| C40-C42, C52 | `Mapper`: field descriptors (`Lay`), byte images, `Codec` = the `map(Visitor&)` member of each class | induction on descriptors, one generic proof, instantiated for 13 classes | proved; `map` itself accepts truncated images (`C52_map_accepts`), a top-level POD has no size tree (`C42_pod_rejected`) |
| C43 | heap of buffers, numbered vector objects, arbitrary command lists | ownership invariant | proved; `assign` of its own range to an owning vector reads freed memory (`C43_self_assign`) |
| C44, C45 | `Vbyte`, `NibbleVector` | arithmetic, fold invariant | proved |
| C46 | `int2nat`, `nat2int` with signed overflow | arithmetic | false outside (-2^62, 2^62) and at 2^64-1; proved on the exact ranges |
| C47 | `fgets`-level model of a stream | induction on chunks and lines | false for every file with an unterminated last line (its last chunk is returned twice) and for NUL bytes; proved for terminated NUL-free files; all files in C81 |
| C48 | pointer walk of `buffer_line_iterator` | induction | proved |
| C49 | `line_iterator` | induction | false for every file (spurious empty first line); the rest proved |
| C50 | `toI32 size` in `build_min_tree` | arithmetic on the leaf assertion | false for every size in [2^31, 2^32], and above 2^32 for some (`C50_shallow_false`); proved below 2^31 for every depth; for every size below 2^64 with excess below 2^31-64 it is proved exactly when construction succeeds (every superblock has an excess below `size mod 2^32` as signed) and that then all queries are correct (`C50_any_length_partial`) |
| C51 | offsets produced by `mapV` | divisibility of running offsets; witnesses built by the modelled constructors | holds for four classes, false for the other nine; C82 says for which objects |
| C53-C57 | lengths of every array the constructors return | one shape lemma per constructor ("if it returns, the arrays have these lengths and entries in these ranges"), combined with the existence theorems | proved |
| C58 | constructors followed by freeze and map | shape lemmas discharge the `fits` side condition of C40 | proved for all 13 classes |
| C59 | `swap` members as sequences of `std::swap` on members of numbered objects (`Field`, `Objs`); `util::dispose` | each member lens is well behaved; composition | proved for 14 classes |
| C60 | default constructors, uninitialised members as arbitrary values | evaluation | holds for `bit_vector`, `darray`, `darray64`, `nibble_vector`; false for the others (one theorem each) |
| C61 | `append` with the argument aliasing the object | length argument; for short builders equality with the unaliased call | false from 64 bits on (out of bounds) and for 33..63 bits (stray bits; `C61_stray_exact_partial` tells exactly when, and that the bits proper are right); proved up to 32 bits |
| C62 | `CartesianTree.build` for two sequences | simulation of the two stacks by index; stack invariant "each index is the leftmost minimum from itself on" | proved |
| C63 | `rank`/`select` of `RSBitVector`, `Darray`, `EliasFano`, the four containers | from the specifications each satisfies, and their determinacy | proved |
| C64 | `BpVector` queries on the sequence of an ordered forest (`Spec/Tree`: inductive `Forest`, `Node` relating path, preorder number, position, subtree) | induction over the node relation; the sequence splits around each node into balanced parts; then C32-C35, C50 | proved below 2^30 nodes |
| C65 | `freezeTo` a used stream, `mapAt` an offset, `freezeAll` | freezing appends; C40/C41 at each offset | proved |
| C66 | `freeze`, `map`, `load` | mapping an image followed by anything is a left inverse of freezing | proved |
| C67 | `Model/Work`: each query with the fuel of its unbounded loops replaced by `k` | fuel lemmas for the loops (halving, doubling); span of a `darray` block; the cut-off query equals the query | proved; examples show that fewer steps do not suffice |
| C68 | `Model/CartesianTree` with other comparators | pointwise form of `rmq_spec` (a winner of the range), existence of the rightmost minimum | proved |
| C69 | `Model/Spent`: vector and builder sharing a buffer, `m_cur_word` as a pointer into either | invariant: while the pointer is into the vector the builder has no words and writes only padding | **false** of the code (`C69_false`: `get_word` and the image change); `C69_bits_partial` for everything confined to the bits of the vector, `C69_aligned` without padding; `C69_free`: once the pointer is given up the builder is an ordinary one |
| C70 | `Model/CharSign`: the functions reading `m_fwd_exc` with the signedness of `char` as a parameter | equality with the model for signed `char` | **false** where `char` is unsigned (`C70_rmq_false`: minimum of 0..9 reported at 1); `_partial` for signed `char`; `C70_table`: the value read for every byte in both cases |
| C71 | `Model/TopK` | C38 and uniqueness of the ranking; filtering a ranking | proved |
| C72 | `Model/BpVector` | `C72_accepts`: the minima computed bound the excess from below; soundness of the block searches for arbitrary targets; the ascent in the min tree fails if no node qualifies | proved; `C72_padding_false`: for a parenthesis that is never closed `find_close` may answer `size()`, or fail |
| C73 | all query and constructor models | positive halves from the earlier theorems; negative halves: the assertion that fails, or, for constructors, what every successful run implies (induction over the construction loops) | proved; `C73_get_bits_false`, `C73_excess_rmq_false`, `C73_rmq_false`, `C73_builder_set_false`: calls accepted outside their domain |
| C74 | `Model/Machine`: `bit_vector.hpp`, `rs_bit_vector.{hpp,cpp}` with wrapping 64-bit words | simulation of the models over natural numbers, function by function; loops by induction; then the earlier theorems | proved; `C74_new_false`, `C74_set_bits_false`, `C74_zero_extend_false`: builder calls that wrap unnoticed |
| C75 | `Model/MachineEF`: `darray.hpp`, `darray64.hpp`, `elias_fano.hpp` (builder and queries, not the enumerators) with wrapping 64-bit words | simulation as for C74, where the model answers; the rejected arguments directly from the 64-bit code | proved; `C75_universe_false`: the excluded constructor arguments |
| C76 | `Model/MachineEnum`: the enumerators of `bit_vector`, `elias_fano` and the gamma vectors, `elias_fano_list.hpp`, `elias_fano_compressed_list.hpp`, `gamma_vector.hpp`, `gamma_bit_vector.hpp` with wrapping 64-bit words | simulation of the models of C07, C08, C24, C26–C30 where these answer; sizes bounded from the representation invariants | proved; the histories excluded in C07 and C08 are excluded here too |
| C77 | `UEnum` state machine of C08 and its 64-bit variant | invariant: the buffer holds the bits of the current word from the position on, less a one that `next` returned; both directions, so failure is characterised as well | proved, also for the histories C08 excludes |
| C78 | `Machine.Enum` (wrapping 64-bit words) | invariant: the buffer holds the bits of an interval `[b, c)` and `pos + avail = c` modulo `2^64`, also after the counter has gone below zero; both directions | proved, also for the histories C07 excludes; `C78_runs_past_end`: after such a history `next` does not notice the end |
| C79 | `Model/TopKOver`: `topk_vector.hpp` over an abstract container (build, `operator[]`, `size`), and the five containers of the library | the enumerator over the container simulates the one over the list of values; C38, C39; the shape lemmas of C53-C57 give freezing | proved; `C79_signed_false`: with a range ordered differently from the container's values the ranking is wrong |
| C80 | `Model/Range`: the constructors of the compressed lists on ranges of any integer type (promotion, wrap-around, signed overflow undefined) | reduction to the constructors on 64-bit values; arithmetic of the promoted type | proved, both directions; `C80_uint32_false`: the largest `uint32_t` is rejected |
| C81 | `fgets`-level model of C47, all byte contents | one step of the loop per piece `fgets` returns; induction over the groups of pieces; both directions | proved, also for the files C47 excludes; `C81_faithful`: exactly the NUL-free files that are empty or end with a newline are read unmodified |
| C82 | C51's model, objects built by the constructors | the offset of each vector as a sum of the sizes before it (`elementsAligned_iff`), the lengths from C53–C57 | proved as equivalences per class; `elias_fano` with and without rank index for nonempty lists |
| C83 | `Model/Alloc`: every growth of `m_bits` may throw; the caller catches and goes on | invariant with two kinds of states (`Held`): the bits, or the whole words with `size()` ahead of them; induction over the history | proved for every history that does not call, on a builder whose `size()` is ahead, anything but `set`, `reserve`, `zero_extend`; that the other calls corrupt or are undefined is shown by witnesses |
| C84 | `Model/MappableAlloc`: the operations of C43, where a `new` or an iterator may throw | invariant of C43 extended by broken vectors and a list of lost buffers; induction over the program | proved for every program that does not read a broken vector or assign a vector its own range |
| C85 | `Model/MachineBp`: `bp_vector` (construction of the min tree and all queries) and `cartesian_tree` with wrapping 64-bit words, `int32_t` where the code uses `excess_t` | simulation: wherever the models of C31–C36 answer, the 64-bit code answers the same; sizes of the tree bounded by the run of `build_min_tree`; rejection read off the first assertions | proved; the condition under which construction succeeds is that of C50 |
| C86 | `Model/Release`: the searches of `bp_vector` in 64-bit arithmetic without assertions; outcomes are an answer, undefined behaviour, or still running after a given number of loop iterations | agreement by simulation, function by function; non-termination: all numbers in the tree are at least 0 and the target is -1, so that no iteration of the ascent leaves the loop, for every number of iterations | proved; construction is modelled with assertions (`Model/MachineBp`), which have no side effects |
| C87 | `Model/MachineTopK`: `topk_vector` over a container, `nibble_vector` and `vbyte.hpp` with wrapping 64-bit words | the heap functions on 64-bit elements are carried over to heap functions on natural numbers, for which C38 and C39 hold; then simulation; `rmq` by C85 and uniqueness of the leftmost minimum; containers by C76 | proved; allocation of the result of `topk` is not modelled |
| C88 | `Model/OutStream`: `freeze` with a stream of which any write may fail, and with a file name; the environment chooses which write fails and how much of the buffered output is lost | induction over the visited fields: the count is that of C41, the file a prefix of the image, and complete while the state is good; C52 for the prefixes | proved; `C88_undetected_false`: the returned count never shows the failure |
| C89 | `mapV`, `load` of `Model/Mapper` on arbitrary bytes | induction over the shape of the class: what is read, written again, gives the same bytes; encodings of fields are onto | proved; `C89_count_wraps_false`: comparing the returned count with the file size is no sufficient check |
| C90 | `Model/Dump`: `size_node::dump` with default formatting | decimal digits contain no space and are injective, names are delimited; the depths of a preorder listing determine the tree | proved; `C90_names_false` for other names |
| C91 | `Model/LineShare`: a state of files and iterators, operations on it | one increment by C81, induction over programs, generalised over what is left of the file | proved for files `fast_getline` can read (C81 says which); `C91_multipass_false` |
| C92 | `Model/LineShare`: adaptors on lists of bytes | induction on both strings | proved |
| C93 | the model of C36, any comparator; `Spec/Stack`: the indices in the running | `rmq` answers the last index of lowest stack (`rmq_height`, from the proof of C36); the stack as a list of indices is decreasing, an index in the running keeps those below it; so lowest stack = first in the running | proved |
| C94 | the models of C38, C39, any operators; heap functions assumed to rearrange | the intervals in the queue partition what is left, by C93 | proved |
| C95 | `Model/Cost`: construction with the list of calls of the comparator, `next()` with the number of calls of `rmq` | amortised: calls + stack height grow by at most 2 a value; queries made = entries delivered + elements in the queue | proved, for any comparisons |
| C96 | `Model/Reads`: the enumerators with the words read, or the calls of `fill_buf` | induction over loops and histories: positions never go back; each iteration of `skip_zeros` but the first passes 64 bits | proved |
| C97 | `Model/TopKAlloc`: `next()` with spare room and failing allocation | the queue invariant of C38 with the lost interval taken out of the ranking; `Spec/Drain` says what is left | proved |
| C98 | `Model/BuilderAlloc`: `push_back` of `elias_fano_builder` and of `cartesian_tree::builder`, `append1` of `darray64::builder`, with failures | words needed are bounded by `m * m_l`; each exception that leaves something behind makes the surplus of closing parentheses larger, and the constructor of `bp_vector` rejects it (`C72_accepts`) | proved |
| C99 | `Model/ByteOrder`: `get_word56`, `freeze` and `map` with the byte order of the machine as a parameter; an object is given by its fields with the least significant byte first, `inMemory` turns them into the bytes of the machine | the bits of the eight loaded bytes one by one; induction over the visited fields: the first non-empty vector gets a byte-swapped count of at least `2^32` elements | proved |
| C100 | `Model/Vbyte` on bytes that no encoder wrote | induction over the bytes with the top bit set; uniqueness of base-128 digits | proved |
| C101 | `Model/SeqReads`: the enumerators of `Model/EliasFano` and `Model/Gamma` with the words they read (on top of `Model/Reads`) | refinement of the functions without the record, then induction over the calls; for the low buffer the invariant that two fills need 65 bits | proved |
| C102 | `Model/ReleaseRank`: the queries of `Model/Machine` and `Model/MachineEF` without assertions | answers of the checked code carry over by monotonicity; `bit_vector` is compared with the vector of whole words; for a missing element the last word search leads out of the array, or `select_in_word` out of its table | proved; `select` from `2^56` on is wrong (witness) |
| C103 | `Model/Checked`, `Model/CheckedBp`: the queries with five outcomes (value, failed assertion, access out of bounds, undefined arithmetic, endless loop) on arbitrary objects; `Spec/Safety` | every plain access and every loop bound is derived from the assertions passed before it, function by function; agreement with the 64-bit model statement by statement | proved; two exceptions of the code are proved as such |
| C104 | `Model/ReleaseSeq`: element access and enumerators of the integer sequences and `nibble_vector` with assertions compiled out, 64-bit arithmetic | the calls inside agree with the checked code; outside, the word behind the last code is zero or absent, so `lsb` leaves 255 and the shift is undefined, or the search for the next one leaves the array; nibbles by induction over pairs | proved |
| C105 | `Model/Tests`: the drivers of the tests, the tested object a structure of arbitrary functions; a failed requirement and an index outside a vector of the driver are `none` | loop invariants in both directions: each round passes iff its condition holds (`forUp_iff`) | proved |
| C106 | `Model/Tests`: the three generators, `rand()` an arbitrary sequence | induction over the recursion (binary tree) and over the loop with the excess (`random_bp`) | proved |
| C107 | `Model/Tests`: the drivers on the modelled library | C105 with the theorems of the structures (C02, C05, C06, C14–C18, C23–C39, C79) | proved |
| C108 | `Model/ReleaseRmq`: `excess_rmq`, `rmq` and the `topk_vector` queries in 64-bit arithmetic without assertions | answers of the checked code carry over function by function, loops with at least as many iterations; beyond the end the argument of `select0` wraps to a number whose hint is outside the table | proved |
| C109 | `Model/ReleaseBuilder`: the builder without its assertions; `Spec/RawBuilder` gives the buffer with its padding | every call preserves the agreement of words and padding with the specification; answers of the checked code carry over | proved |
| C110 | `Model/ReleaseFano`: builder and constructors of `elias_fano` without assertions; `Spec/RawFano` gives the marks | invariant of the two parts over the pushes; marks sorted against marks pushed, equal if their sums are | proved |
| C111 | `Model/ReleaseBp`: constructor of `bp_vector` without assertions; queries of `Model/Release` and `Model/ReleaseRmq` | every node of the tree holds the negative size; the tree search then climbs from the first leaf it tries and descends to it or leaves the array; blocks outside the tree as in C31-C35 | proved |
| C112 | `Model/ReleaseMake`: constructors of the four integer sequences without assertions | C110 for the prefix sums modulo `2^64`, with `delta` as the difference of two selections; invariant that the builders can be appended to; the other constructors agree step by step with those of C26-C29 | proved |
| C113 | `Model/ReleaseCart`: builder and constructor of `cartesian_tree` without assertions, with `rmq` of `Model/ReleaseRmq` | the constant tree of C111, and the heights of the stack of C93 at the positions that are looked at | proved |
| C114 | `Model/PerfFano`: `monotone_generator` and `ef_enumeration_benchmark`, with arbitrary random numbers | the stack holds disjoint dyadic intervals in increasing order; any sorted list determines the draws; C24 for the enumerator | proved |
| C115 | `Model/PerfBp`: `time_visit`, `time_avg_rmq` and their callers, with arbitrary random numbers | induction over the binary tree (`Spec/BinTree`), with C31, C35 and C36 for the answers | proved |
| C116 | `Model/UserClass`: a `map(Visitor&)` member as a tree of visits and branches on the current object; freezing, mapping onto an arbitrary object, size; the cases of `test_mapper.cpp` | induction over the tree: members passed so far agree with those frozen, so the branches are the same | proved |
| C117 | `Model/DataModel`: `freeze` with `long` of 32 bits; the members of all classes with `size_t` of `w` bytes | induction over the fields for the bytes written; a mapped image is the frozen image of what it gives (C89), so lengths decide | proved |
| C118 | `Model/Indet`: `bp_vector` constructed over memory with any contents; else the constructors of the other rows | the constructors give the same object for the same contents (C01, C25, C62), the contents can be read off the object, and images determine objects (C58, C66) | proved |
| C119 | `Model/Size32`: the constructors with the conversions to a `size_t` of 32 bits | the loops reduce to those of `Model/EliasFano` on the reduced values (a sum that wraps makes the builder's order check fail), sizes below `2^32` by the shapes of C57 | proved |
| C120 | `Model/Walk`: the searches, the bucket walks and the construction loops with counters | forgetting the counter gives the function back; loop invariants for the counters, telescoping for the bitmap constructor | proved |
| C121 | `Model/Mapper` (`sizeV`) on the built objects | size of each codec as a sum over its arrays; array lengths from C53-C57 and the shape invariants | proved |
| C122 | `Model/Vbyte32`: `vbyte.hpp`, `nibble_vector` and `topk` with `size_t` of 32 bits | simulation of the 64-bit models, the value taken modulo 2^32 | proved |
| C123 | `Model/AutoFile`: constructor and destructor of `auto_file` in programs of nested blocks with exceptions; `Spec/Files`: which uses of files are allowed | induction over the program, events replayed on the list of open files | proved |
| C124 | `Model/EnumSwap`: objects with pointers to blocks of words, `bit_vector::swap` member by member, both enumerators with the pointer they hold; `Spec/EnumSwap`: reads while contents are exchanged | induction over the history; the buffer is exact for the vector last fetched from | proved |
| C125 | `Model/Util` (as for C47-C49); `Spec/LineAgree`: lines both readers return alike | both readers line by line, then the number of trailing carriage returns of each line | proved |
| C126 | `Model/GammaSwap`; `Spec/GammaSwap`: the relation between a history of swaps and reads and its answers | the enumerator is described by the words of the old content and the held digits, by induction over the history | proved |
| C127 | `Model/FanoSwap`; `Spec/FanoSwap`: the relation between a history of swaps and reads and its answers | the enumerator is described by the old high part and the low parts held; both directions by induction over the history | proved |
| C128 | `Model/TopKSwap`; `Spec/TopKSwap`: the pending entries, and the relation between a history of swaps and calls and its answers | invariant of the queue (heap, disjoint spans) over the history; uniqueness of the answers by induction over the relation | proved |
| C129 | `Model/ListSwap`; `Spec/ListSwap`: reading position by position | equality of the two functions by induction over the history, from C26, C27 and C73 | proved |
| C130 | `Model/MappableIter` over `Model/Mappable`; `Spec/MappableIter`: the holder of elements | each operation constructs, renews or swaps; invariant along the program, with that of C43 | proved |

### 2.1 Defects of the code found on the way

1. `bit_vector::enumerator::take(64)` leaves the buffer non-empty with `m_avail = 0`; a following `skip_zeros` answers from the stale bits (C07).
2. `unary_enumerator::skip0` after `next()` counts the one just returned as a zero (C08); constructing a `unary_enumerator` at `size()` when that is a multiple of 64 reads past the array (`C08_unary_end_oob`).
3. `bit_vector_builder::reserve` in mid-word leaves `m_cur_word` dangling (C01).
4. Shifts by 64 in `get_bits` (len = 64), `find_close`, `find_open`: undefined, masked away afterwards.
5. `bp_vector` of 2^31..2^32 bits: `excess_t(size())` is not positive, an assertion of `build_min_tree` fails (C50). Above 2^32 bits construction succeeds exactly if every superblock of 8192 bits has an excess below `size mod 2^32` taken as signed; `((()()...))` of 2^32+2 bits fails.
6. `int2nat` overflows for |x| >= 2^62; `nat2int(2^64-1) = 0` (C46).
7. `fast_getline` duplicates the last chunk of an unterminated last line (C47); NUL bytes truncate or merge lines, a leading NUL indexes an empty string.
8. `line_iterator` yields a spurious empty line first (C49).
9. `map` does not align arrays: misaligned access for most structures (C51), nor does it notice truncation (C52).
10. `mappable_vector::assign` from a range of itself clears the vector before copying: it reads freed memory (C43).
11. `buffer_line_iterator` computes the pointer `m_end + 1` after an unterminated last line (formally undefined; the model lets it pass).
12. `excess_tables::m_fwd_exc` has element type `char`: where `char` is unsigned `excess_rmq` and `rmq` return wrong answers (C70).  Everything but `Model/CharSign` is for platforms where `char` is signed.
13. Default constructed objects: `rs_bit_vector::rank(0)`/`num_ones()` and everything built on them read before the start of an empty array; `bp_vector`, `elias_fano` have uninitialised members; `elias_fano_list::sum()` and `size()` of `elias_fano_compressed_list`, the gamma vectors and `cartesian_tree` are 2^64-1 (C60).
14. `bit_vector_builder::append` of a builder to itself writes out of bounds from 64 bits on, and leaves stray bits for 33 to 63 bits (C61).
15. A `bit_vector_builder` that has been made into a `bit_vector` keeps `m_cur_word` pointing into the vector and `m_size` as it was: pushing onto it writes into the vector's padding (C69).
16. `vbyte.hpp` uses `util::ceil_div` without including `util.hpp`.
17. `bp_vector::find_close` of a parenthesis that is never closed may answer `size()` or a later padding position; `enclose` of a top-level parenthesis fails the assertion at the root of the min tree, or reads before the first block (C72).  With assertions compiled out `find_open` and `enclose` at such a position never return from 256 on, and `find_close` of an unclosed parenthesis may answer `2^64-1` (C86).
18. Missing checks (C73): `get_bits` accepts `len > 64`; `excess_rmq` accepts a right end in the padding of the last word and may answer a position beyond the sequence; `rmq(a, a)` answers `a` for `a` beyond the size; `bit_vector_builder::set` accepts a position in the padding, which then counts as a one.
19. Unchecked wrap-around (C74): `bit_vector_builder(n)` with `n > 2^64 - 64` allocates no words and takes `back()` of an empty vector; `set_bits` compares the wrapped `pos + len`, so that a position near `2^64` passes the assertion and is written out of bounds; `zero_extend` past `2^64` bits shrinks the vector and leaves stray bits.
20. `topk_vector` compares the elements of the range, but its enumerators the values of the container: for signed ranges with negative values over a container of `uint64_t` the two orders differ and the ranking is wrong (C79).
21. The constructors of `elias_fano_compressed_list`, `gamma_vector` and `gamma_bit_vector` compute `*iter + 1` (`+ 2`) in the element type of the range: `2^32-1` in a range of `uint32_t` wraps to 0 and fails the assertion of `msb`, `2^31-1` in a range of `int` overflows (C80).
22. `append_bits`, `one_extend`, `zero_extend` and `append` of `bit_vector_builder` increase `m_size` before they allocate: after `std::bad_alloc` `size()` is ahead of the words, a repeated call writes over bits appended before or through an uninitialised pointer, and no bit vector can be made (C83).  Only `push_back` leaves the builder as it was.
23. `mappable_vector::steal` sets `m_size` before it allocates: after `std::bad_alloc` the vector claims elements it has not got, and reading them dereferences a null pointer; the constructor from a range loses its buffer if an iterator throws (C84).
24. `freeze` ignores the state of the stream: if the file cannot be opened, or the disk is full, it still returns the full size, and with a file name there is no way to notice (C88).  `map` computes `m_size * sizeof(T)` modulo `2^64`, so that a corrupted element count of `2^61 + n` is mapped as if it were `n`, and the returned count is that of a good file (C89).
25. `line_iterator` calls itself a forward iterator, but copies share the file: after `b = a; ++a` the two compare equal with different values (C91).
26. Over values with NaN (or another comparator that is no strict weak order) `cartesian_tree::rmq` ignores everything behind a NaN, and `topk_vector` may miss the greatest values (C93, C94); nothing warns of it, but no index out of range is returned.
27. If memory runs out in `next()` of a `topk_vector` enumerator, the entries behind the current one are lost although later calls go on delivering (C97).  `cartesian_tree::builder::push_back` and `darray64::builder::append1` must not be repeated after an exception (C98): a zero too many stays in the sequence of parentheses, the zeros are appended twice.
28. On a big-endian machine `get_word56` answers wrongly except in the first byte of a word; images carry no mark of their byte order, and `map` does not notice one of the other order (C99).
29. `decode_vbyte` does not look at the end of the vector: a truncated code is read past it; a code of `2^64` or more loses its high bits (C100).
30. With assertions compiled out `rs_bit_vector::select(n)` with `n` of at least `2^56` may answer a position although there is no such one: `select(2^56)` of eight ones is 0. `select0` and `darray0::select` may answer positions of the padding (C102).
31. Even with assertions enabled, `rs_bit_vector::num_ones()` of an object without counts (a default-constructed one, or a corrupted file) reads before its array (`rs_bit_vector.hpp:43-45`), and the enumerators of `elias_fano`, `gamma_vector` and `gamma_bit_vector` read the first word through a plain pointer at the position the `darray` gives, which nothing checks (`bit_vector.hpp:437-444`). All other queries of C103 are memory-safe on arbitrary contents (C103).
32. In a build with `NDEBUG` the constructor of `nibble_vector` does not mask its values: bits 4 to 7 of a value at an even position are or-ed into the value after it (`nibble_vector.hpp:28`), so one bad value changes its neighbour (C104).
33. The test of the unary enumerator reads `v[v.size()]` whenever its vector ends in a zero (`test_bit_vector.cpp:177` tests the bit before the bound); the driver of `cartesian_tree` reads `v[1]` of a vector of one value (`test_cartesian_tree.cpp:36` compares with `>`, not `>=`); the driver of `bp_vector` trusts the size the tested object claims, and the one of its range minimum never looks at the excess returned (C105, C107). The loop `test_darray.cpp:70-73` adds a random step that may be zero.
34. With assertions compiled out `cartesian_tree::rmq(a, b)` with `a > b` may return a position outside both the range and the sequence: `rmq(20, 18)` of 0, ..., 39 is 17, `rmq(3, 1)` of eight values is `2^64 - 47`, as is `rmq(0, 2^64 - 1)`. `topk(20, 19, k)` returns an empty list or reads outside (C108).
35. With assertions compiled out `append_bits(bits, len)` with bits above `len` set does not drop them: they show up as ones in whatever is appended next (`append_bits(0xFF, 4)` and four `push_back(0)` give eight ones), and count in `num_ones` and `rank(size)` of `rs_bit_vector` even if nothing follows. `append_bits(0, 65)` adds one word for 65 bits (C109).
36. With assertions compiled out `elias_fano_builder` takes unsorted values without complaint, and the result contains values that were never pushed: 90, 10, 50, 95 in a universe of 100 give 26, 74, 98. A value above the universe or beyond the capacity is stored, lost, or written outside the buffer, depending on where its mark falls (C110).
37. With assertions compiled out a `bp_vector` of `2^31` to `2^32 - 1` bits can be built, but its tree holds nothing but the size, which is negative as an `excess_t`. `find_close`, `find_open` and `enclose` read outside the arrays as soon as the answer is more than a superblock or two away; `excess_rmq` silently ignores all superblocks in the middle of the range (C111).
38. With assertions compiled out `gamma_bit_vector` accepts the value `2^64 - 1`: `append1(l - 1)` then gets `2^64 - 1`, the size of the bit vector shrinks by one and later bits go to the wrong word, so that other values change (C112). `elias_fano_list` accepts values whose sum does not fit in 64 bits; some such lists lose or change values, some write out of bounds, some come back correctly (C112).
39. With assertions compiled out a `cartesian_tree` over `2^30 - 1` values or more is built, but `rmq` ignores the middle of long ranges: the minimum of `2^21 + 1` values around a single 0 among ones is said to be a 1 (C113).
40. `ef_enumeration_benchmark` fails its own assertion for `m = 0`, as the stack of `monotone_generator` starts with a node of no values, and `bits = 64` shifts by 64 (C114).  `time_visit` never ends on a tree of a single leaf (C115).
41. Where `long` has 32 bits and `size_t` 64 (64-bit Windows) `freeze` of a vector of 2 GB or more calls `write` with a negative count or silently writes only the size modulo 4 GB while returning the complete size (`mapper.hpp:84`, C117).
42. `m_internal_nodes` of an empty or default constructed `bp_vector` is never initialised, but `freeze` writes it: 8 bytes of the image are whatever was in memory, so images of equal empty vectors differ (`bp_vector.hpp:15-17,32,97`, `bp_vector.cpp:630`, C118); `swap` copies it.
43. Where `size_t` has 32 bits, `elias_fano_list` and `elias_fano_compressed_list` keep 64-bit values in variables of type `size_t`: a value such as `2^32 + 5` is silently stored as 5, `2^32 - 1` is rejected (`elias_fano_list.hpp:18-33`, `elias_fano_compressed_list.hpp:34`, C119); `bit_vector::m_size` is a `size_t`, so a vector of `2^32` bits (512 MB) claims to be empty while `rank(0)` returns the number of its ones (`bit_vector.hpp:209,223,525`, `rs_bit_vector.hpp:53`, C119).
44. `decode_vbyte` and `append_vbyte` work on `size_t`: where that has 32 bits, numbers from 2^32 on written elsewhere are read modulo 2^32 without any sign of an error (C122).
45. `enumerator` keeps a pointer to the vector object, `unary_enumerator` one to the words: after a `swap` the first goes on in the new content (after up to 64 bits of the old), the second in the old (C124). The enumerators of `gamma_vector`, `gamma_bit_vector` and `elias_fano` use both and, after a swap, combine parts of different values (C126, C127). The enumerator of `topk_vector` goes on in the content now in place with entries queued from the old one, so the order may be wrong (C128).

## 3. Trusted base

* The Lean 4.33 kernel.  Axioms: every property theorem depends on a subset of `propext`, `Classical.choice`,
  `Quot.sound` (checked with `collectAxioms` over all theorems `C..`); no `sorry`, no added axiom, no `native_decide`, no `bv_decide`.
* The reading of the C++ source recorded in the citations (the definitions in `Verif/Model`).
* Documented behaviour of compiler intrinsics (`__builtin_ctzll`, `__builtin_clzll`, `__builtin_bswap64`,
  `_mm_popcnt_u64`), of the C++ standard library containers and heap algorithms, and of `fgets`.
* Little-endian machine, two's complement conversions, 8-bit bytes, LP64 types, signed `char`.
* Sizes of objects in memory do not overflow 64 bits (for the builder, `bit_vector`, `rs_bit_vector`, `darray`, `darray64`, `elias_fano`, the lists, the gamma vectors and their enumerators of at most `2^63` bits, and for `bp_vector`, `cartesian_tree`, `topk_vector`, `nibble_vector` and `vbyte.hpp`, this is proved, C74–C76, C85, C87).

### 3.1 Modelled code

`broadword.hpp`, `intrinsics.hpp` (by contract), `tables.hpp`, `bit_vector.hpp`, `rs_bit_vector.{hpp,cpp}`,
`bp_vector.{hpp,cpp}`, `darray.hpp`, `darray64.hpp`, `elias_fano.hpp`, `elias_fano_list.hpp`,
`elias_fano_compressed_list.hpp`, `gamma_vector.hpp`, `gamma_bit_vector.hpp`, `forward_enumerator.hpp`,
`cartesian_tree.hpp`, `topk_vector.hpp`, `mapper.hpp`, `mappable_vector.hpp`, `nibble_vector.hpp`, `vbyte.hpp`,
`util.hpp` (line iteration, `trim_newline_chars`, `int2nat`, `nat2int`, `ceil_div`), and of the tests the drivers and generators (`Model/Tests`).

`Model/Life`, `Model/Stream`, `Model/Work`, `Model/Spent`, `Model/CharSign`, `Model/Machine`, `Model/MachineEF`, `Model/MachineEnum`, `Model/MachineBp`, `Model/MachineTopK`, `Model/Release`, `Model/ReleaseRank`, `Model/ReleaseSeq`, `Model/ReleaseRmq`, `Model/ReleaseBuilder`, `Model/ReleaseFano`, `Model/ReleaseBp`, `Model/ReleaseMake`, `Model/ReleaseCart`, `Model/PerfFano`, `Model/PerfBp`, `Model/UserClass`, `Model/DataModel`, `Model/Indet`, `Model/Size32`, `Model/Walk`, `Model/Vbyte32`, `Model/AutoFile`, `Model/EnumSwap`, `Model/GammaSwap`, `Model/FanoSwap`, `Model/TopKSwap`, `Model/ListSwap`, `Model/MappableIter`, `Model/Checked`, `Model/CheckedBp`, `Model/TopKOver`, `Model/Range`, `Model/Alloc`, `Model/MappableAlloc`, `Model/LineShare`, `Model/Cost`, `Model/Reads`, `Model/SeqReads`, `Model/TopKAlloc`, `Model/BuilderAlloc`, `Model/ByteOrder`, `Model/OutStream` and `Model/Dump` hold variants of these functions: whole object lifetimes
(default construction, swap, self-append), several objects in one stream, queries with counted loop iterations, construction with counted comparisons, enumerators with the words they read, a builder sharing its
buffer with the vector made from it, unsigned `char`, machines of either byte order, wrapping 64-bit arithmetic, searches, queries, enumerators, the bit-vector and the Elias-Fano builder and the constructors of `bp_vector`, `cartesian_tree` and of the integer sequences without assertions, queries with assertions on arbitrary contents, `topk_vector` over a container, ranges of other integer types, builders, vectors and an enumerator for which memory runs out, line iterators sharing a file, an output stream that fails, and the printed size tree.

Every definition in `Verif/Model` except a constant the library does not use (`incr_step_8`) occurs in the statement of some property theorem,
directly or through other definitions.

### 3.2 Not modelled

* `empty`, `data()` accessors.
* `map` of a `boost::iostreams::mapped_file_source` (`mapper.hpp:257-261`), which passes `data()` on; formatting flags of the stream given to `dump`.
* Opening and mmapping of files (`fopen` gives a new handle or fails, C123).
* `intrinsics::prefetch` and the `prefetch` arguments (no observable effect).
* Exceptions thrown by memory allocation, except out of `bit_vector_builder` (C83, which assumes that a member of `std::vector` that throws has changed nothing) `mappable_vector` (C84, which assumes that `boost::function` stores a functor of one pointer without allocating), the enumerator of `topk_vector` (C97) and three other builders (C98).
* The MSVC variants of the intrinsics.
* of `perftest/` the clock, the reports and `main` (the rest is in `Model/PerfFano` and `Model/PerfBp`); of the tests `random_bit_vector` and the choice of inputs in the test cases (the drivers and the generators of balanced sequences are in `Model/Tests`).
* Concurrency: all queries are `const` and no structure has mutable members, so there is no interleaving to model.

## 4. Tests against wrong programs

`seeded/LOG.jsonl` has one line per wrong program tried: the model definition edited, the edit, the claim broken, the property theorems
that no longer prove, and what was tightened.  The edits are made in a scratch copy; the modules depending on the edited one are
elaborated again in order of dependency until one fails.  `theorems_failed` lists the property theorems that rest (directly or through
lemmas) on a declaration that failed there.  This says that the existing proof no longer goes through, not by itself that
the statement is false of the edited program: some edits marked harmless or equivalent in `claim_broken` also break proofs, and since the
run stops at the first failure the list need not be complete.  An empty list is an edit under which everything still proved when
it was tried; there are four.  Three break no claim, one led to `C70_table`; each has a `note`.
