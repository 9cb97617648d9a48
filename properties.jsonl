{"id": "C01", "title": "Builder histories produce exactly the appended/edited bit sequence", "statement": "Starting from bit_vector_builder(size, init), after any sequence of push_back, set, set_bits, append_bits, zero_extend, one_extend, append and reverse calls whose documented preconditions hold, bit_vector(&builder) has size() and operator[] equal to the list of bits obtained by performing the same operations on a plain list of booleans.", "quantifier": "every initial size/init value and every finite history of builder calls with every argument satisfying the asserted preconditions", "why_tests_cant": "the result depends on alignment of every operation relative to 64-bit words and on all earlier operations; tests sample a handful of fixed histories", "anchors": ["bit_vector.hpp: bit_vector_builder::{ctor,push_back,set,set_bits,append_bits,zero_extend,one_extend,append,reverse,move_bits}", "bit_vector.hpp: bit_vector(bit_vector_builder*), operator[], size"]}
{"id": "C02", "title": "Range constructor reproduces its input", "statement": "bit_vector(range).size() is the length of the range and bit_vector(range)[i] is the truth value of its i-th element, for every i < size(); reading an index >= size() is a precondition violation.", "quantifier": "every finite sequence of booleans and every index", "why_tests_cant": "all lengths modulo 64 and all contents", "anchors": ["bit_vector.hpp: bit_vector(Range const&), operator[], size"]}
{"id": "C03", "title": "get_bits returns the addressed bit field", "statement": "For every pos, len with len <= 64 and pos + len <= size(), get_bits(pos, len) is the integer whose bit i is (*this)[pos+i] for i < len and 0 for i >= len, and no word outside the vector is read.", "quantifier": "every bit vector, every position and every length 0..64", "why_tests_cant": "every alignment/length pair including straddling two words and len = 64, where the source evaluates 1ULL << 64", "anchors": ["bit_vector.hpp: bit_vector::get_bits"]}
{"id": "C04", "title": "get_word / get_word56 read 64 (resp. at least 56) bits", "statement": "For pos < size(), get_word(pos) is the 64-bit integer whose bit i is (*this)[pos+i] when pos+i < size() and 0 otherwise. For every pos such that 8 bytes are readable at byte pos/8, the low 56 bits of get_word56(pos) are the 56 bits of the vector starting at pos (zero beyond size()).", "quantifier": "every bit vector and every position", "why_tests_cant": "every alignment and every tail length", "anchors": ["bit_vector.hpp: bit_vector::get_word, get_word56"]}
{"id": "C05", "title": "predecessor0/predecessor1 find the closest earlier bit", "statement": "If some i <= pos has bit value b then predecessor_b(pos) is the largest such i; otherwise the call runs off the beginning of the vector (assertion). No out-of-bounds read happens in the first case.", "quantifier": "every bit vector, every pos < size(), b in {0,1}", "why_tests_cant": "arbitrarily long runs across many words and all alignments", "anchors": ["bit_vector.hpp: bit_vector::predecessor0, predecessor1"]}
{"id": "C06", "title": "successor0/successor1 find the closest later bit", "statement": "If some pos <= i < size() has bit value b then successor_b(pos) is the smallest such i, with no out-of-bounds read. If there is no later 1, successor1 runs off the end (assertion).", "quantifier": "every bit vector, every pos < size(), b in {0,1}", "why_tests_cant": "arbitrarily long runs across many words and all alignments, and zero padding of the last word", "anchors": ["bit_vector.hpp: bit_vector::successor0, successor1"]}
{"id": "C07", "title": "bit_vector::enumerator is a faithful bit stream under any history", "statement": "An enumerator created at position p and driven by any interleaving of next(), take(l) (l <= 64) and skip_zeros() returns exactly what reading the bits sequentially from p would return (next: the next bit; take(l): the next l bits as an integer; skip_zeros: the number of zeros before the next one, consuming that one), and position() is the number of bits consumed plus p.", "quantifier": "every bit vector, every start position, every finite call history that does not read past the last bit", "why_tests_cant": "the internal buffer carries state between calls; the tests only call next() once on a fresh enumerator, so interactions (e.g. take(64) followed by skip_zeros) are never exercised", "anchors": ["bit_vector.hpp: bit_vector::enumerator::{ctor,next,take,skip_zeros,position,fill_buf}"]}
{"id": "C08", "title": "unary_enumerator enumerates and skips ones/zeros under any history", "statement": "A unary_enumerator created at position p and driven by any interleaving of next(), skip(k), skip_no_move(k), skip0(k): next() returns successive positions of ones; skip(k) makes the following next() return the k-th (0-based) remaining one; skip_no_move(k) returns that position without moving; skip0(k) moves to the k-th remaining zero so that next() returns the first one at or after it.", "quantifier": "every bit vector, every start position, every call history for which the requested ones/zeros exist", "why_tests_cant": "state carried between calls; the tests only call skip0 on fresh enumerators", "anchors": ["bit_vector.hpp: bit_vector::unary_enumerator::{ctor,next,skip,skip_no_move,skip0,position}"]}
{"id": "C09", "title": "popcount counts the set bits of every word", "statement": "broadword::popcount(x) is the number of set bits of x, and byte_counts(x) holds in each byte the number of set bits of the corresponding byte of x, for all 2^64 words.", "quantifier": "all 64-bit words", "why_tests_cant": "2^64 inputs; broadword carries depend on all bits at once", "anchors": ["broadword.hpp: byte_counts, bytes_sum, popcount", "intrinsics.hpp: popcount"]}
{"id": "C10", "title": "select_in_word finds the k-th set bit of every word", "statement": "For every word x and k < popcount(x), select_in_word(x, k) is the position of the k-th (0-based) set bit, the table index stays inside the table, and the result is the same with and without the POPCNT code path.", "quantifier": "all 64-bit words x and all k < popcount(x)", "why_tests_cant": "2^64 inputs times 64 ranks plus a 2048-entry literal table", "anchors": ["broadword.hpp: select_in_word", "tables.hpp: select_in_byte"]}
{"id": "C11", "title": "msb/lsb are exact and independent of the build configuration", "statement": "For x != 0, msb(x)/lsb(x) is the index of the most/least significant set bit and the two-argument forms return true; for x = 0 the two-argument forms return false and leave the output untouched. The portable de Bruijn implementation and the intrinsic one agree on every word.", "quantifier": "all 64-bit words, both build configurations", "why_tests_cant": "2^64 inputs; a given build only compiles one of the two code paths", "anchors": ["broadword.hpp: bit_position, msb, lsb, detail::debruijn64_mapping", "intrinsics.hpp: bsf64, bsr64"]}
{"id": "C12", "title": "reverse_bits/reverse_bytes mirror every word", "statement": "Bit i of reverse_bits(x) is bit 63-i of x, byte i of reverse_bytes(x) is byte 7-i of x (portable and intrinsic paths alike); both are involutions.", "quantifier": "all 64-bit words, both build configurations", "why_tests_cant": "2^64 inputs", "anchors": ["broadword.hpp: reverse_bits, reverse_bytes", "intrinsics.hpp: byteswap64"]}
{"id": "C13", "title": "Parallel field comparisons are exact in every field", "statement": "leq_step_8 / uleq_step_8 compare all eight bytes as signed / unsigned integers, zcompare_step_8 tests each byte for being non-zero, uleq_step_9 compares seven 9-bit fields; each field of the result is 1 exactly when the comparison holds, with no interference between fields. same_msb(x,y) is true iff x and y have the same highest set bit (or are both 0).", "quantifier": "all pairs of 64-bit words (63-bit for step 9)", "why_tests_cant": "2^128 input pairs; interference between fields only shows for specific combinations", "anchors": ["broadword.hpp: leq_step_8, uleq_step_8, zcompare_step_8, uleq_step_9, same_msb"]}
{"id": "C14", "title": "rank/rank0/num_ones/num_zeros count exactly", "statement": "For an rs_bit_vector built from any bit sequence (with or without hints) and every pos <= size(): rank(pos) is the number of ones among the first pos bits, rank0(pos) the number of zeros, num_ones()/num_zeros() the totals; no table entry outside the index is read.", "quantifier": "every bit sequence of any length and every pos in 0..size()", "why_tests_cant": "the two-level packed index depends on length modulo 64 and modulo 512 and on every bit", "anchors": ["rs_bit_vector.hpp: rank, rank0, num_ones, num_zeros, sub_block_rank, block_rank", "rs_bit_vector.cpp: build_indices"]}
{"id": "C15", "title": "select is the inverse of rank on ones", "statement": "For n < num_ones(), select(n) is the position of the n-th (0-based) one: (*this)[select(n)] is true and rank(select(n)) = n. No assertion fires and no out-of-bounds index is read.", "quantifier": "every bit sequence and every n < num_ones(), with and without select hints", "why_tests_cant": "binary search, packed broadword search and hint table must all agree for every distribution of ones", "anchors": ["rs_bit_vector.hpp: select", "rs_bit_vector.cpp: build_indices"]}
{"id": "C16", "title": "select0 is the inverse of rank0 on zeros", "statement": "For n < num_zeros(), select0(n) is the position of the n-th (0-based) zero, despite the zero padding after size() being counted as zeros in the index.", "quantifier": "every bit sequence and every n < num_zeros(), with and without select0 hints", "why_tests_cant": "as for select, plus interaction with padding", "anchors": ["rs_bit_vector.hpp: select0, block_rank0", "rs_bit_vector.cpp: build_indices"]}
{"id": "C17", "title": "Select hints never change an answer", "statement": "Building with with_select_hints / with_select0_hints set or not gives the same results for rank, select and select0 on every valid argument.", "quantifier": "every bit sequence, every combination of the two flags, every valid query", "why_tests_cant": "hint tables depend on where every 1024-th one/zero falls", "anchors": ["rs_bit_vector.cpp: build_indices", "rs_bit_vector.hpp: select, select0"]}
{"id": "C18", "title": "darray1/darray0 select", "statement": "darray1(bv).select(bv, i) is the position of the i-th one of bv and darray0(bv).select(bv, i) that of the i-th zero, for all i < num_positions(), and num_positions() is the number of ones (zeros) among the size() bits.", "quantifier": "every bit vector and every valid index", "why_tests_cant": "dense blocks, sparse (overflow) blocks and partial last blocks each take a different path; 16-bit offsets must never truncate", "anchors": ["darray.hpp: detail::darray::{ctor,select,num_positions,flush_cur_block}, identity_getter, negating_getter"]}
{"id": "C19", "title": "darray64 select", "statement": "After any sequence of append1(skip) calls with skip <= 64, darray64(&builder) has num_ones() equal to the number of calls, bits() equal to the concatenation of 0^skip 1, and select(i) equal to the position of the i-th one.", "quantifier": "every sequence of skips (each <= 64) and every index", "why_tests_cant": "16-bit subblock offsets are relative to 1024-element blocks; truncation only appears for long sparse sequences", "anchors": ["darray64.hpp: darray64::builder::append1, darray64::select"]}
{"id": "C20", "title": "Elias-Fano select returns the stored sequence", "statement": "After pushing any non-decreasing sequence x_0 <= x_1 <= ... (at most m values, each <= n) into elias_fano_builder(n, m), the built elias_fano has size() = n, num_ones() = the number of values pushed and select(k) = x_k.", "quantifier": "every n < 2^64, every m <= 2^62 (if m = 0, n + 2 < 2^64), every non-decreasing sequence of at most m values <= n, every k", "why_tests_cant": "the split into low and high bits depends on n/m; all residues, repeated values and the extreme value n must work", "anchors": ["elias_fano.hpp: elias_fano_builder, build, select, num_ones, size"]}
{"id": "C21", "title": "Elias-Fano rank and membership", "statement": "For pos < size(), rank(pos) is the number of stored values < pos, rank(size()) is num_ones(), and operator[](pos) is true iff pos is one of the stored values.", "quantifier": "every stored sequence (as in C20, with the rank index; the condition on m = 0 is needed) and every pos", "why_tests_cant": "backward scan inside a bucket with equal high parts, including duplicates and empty buckets", "anchors": ["elias_fano.hpp: rank, operator[]", "darray.hpp: darray0"]}
{"id": "C22", "title": "Elias-Fano predecessor1/successor1", "statement": "For pos < size(): if some stored value is <= pos, predecessor1(pos) is the largest such; if some stored value is >= pos, successor1(pos) is the smallest such.", "quantifier": "every stored sequence (as in C20) of values < n and every pos < n", "why_tests_cant": "all gaps and boundaries", "anchors": ["elias_fano.hpp: predecessor1, successor1"]}
{"id": "C23", "title": "Elias-Fano delta and select_range", "statement": "delta(0) = select(0), delta(n) = select(n) - select(n-1) for 0 < n < num_ones(), and select_range(n) = (select(n), select(n+1)) for n + 1 < num_ones().", "quantifier": "every stored sequence (as in C20) and every valid n", "why_tests_cant": "the modular arithmetic relies on carries between high and low parts", "anchors": ["elias_fano.hpp: delta, select_range"]}
{"id": "C24", "title": "Elias-Fano select_enumerator from any start", "statement": "A select_enumerator(ef, i) created at any i < num_ones() returns select(i), select(i+1), ... on successive next() calls up to the last value.", "quantifier": "every stored sequence (as in C20), every start i, every number of next() calls", "why_tests_cant": "low bits are buffered in chunks whose phase depends on i; the test suite only starts at 0 (XXX in test_rank_select_common.hpp)", "anchors": ["elias_fano.hpp: select_enumerator"]}
{"id": "C25", "title": "Elias-Fano from a bitmap is the bitmap", "statement": "elias_fano(&bvb) built from a bit_vector_builder behaves as the bit vector: size, operator[], rank, select (and predecessor1/successor1) agree with the original bits.", "quantifier": "every bit sequence of fewer than 2^62 bits, given by any builder history", "why_tests_cant": "composition of popcount, successor1, builder and the two darrays for every distribution", "anchors": ["elias_fano.hpp: elias_fano(bit_vector_builder*, bool)"]}
{"id": "C26", "title": "elias_fano_list stores integers losslessly", "statement": "For any sequence of unsigned integers with sum < 2^64 - 1, elias_fano_list(v)[i] = v[i], size() = v.size() and sum() = the sum of v.", "quantifier": "every sequence of at most 2^62 integers whose sum is below 2^64-1 and every index", "why_tests_cant": "all value distributions, zeros and large values mixed", "anchors": ["elias_fano_list.hpp: ctor, operator[], size, sum"]}
{"id": "C27", "title": "elias_fano_compressed_list stores integers losslessly", "statement": "For any sequence of unsigned integers each < 2^64 - 1, elias_fano_compressed_list(v)[i] = v[i] and size() = v.size().", "quantifier": "every sequence of fewer than 2^57 64-bit integers other than 2^64-1 and every index", "why_tests_cant": "all value widths and all alignments", "anchors": ["elias_fano_compressed_list.hpp: ctor, operator[], size"]}
{"id": "C28", "title": "gamma_vector stores integers losslessly", "statement": "For any sequence of unsigned integers each < 2^64 - 1, gamma_vector(v)[i] = v[i] and size() = v.size().", "quantifier": "every sequence of 64-bit integers other than 2^64-1 and every index", "why_tests_cant": "tests use 31-bit values only; long codes stress the 16-bit darray64 offsets", "anchors": ["gamma_vector.hpp: ctor, operator[], size, retrieve_value"]}
{"id": "C29", "title": "gamma_bit_vector stores integers losslessly", "statement": "For any sequence of unsigned integers each < 2^64 - 2, gamma_bit_vector(v)[i] = v[i] and size() = v.size().", "quantifier": "every sequence of 64-bit integers less than 2^64-2 and every index", "why_tests_cant": "tests use 32-bit values only", "anchors": ["gamma_bit_vector.hpp: ctor, operator[], size, retrieve_value"]}
{"id": "C30", "title": "Gamma forward enumerators agree with random access from any start", "statement": "forward_enumerator over a gamma_vector / gamma_bit_vector created at any idx < size() returns v[idx], v[idx+1], ... on successive next() calls, up to the end; gamma_bit_vector's skip(k) discards exactly k values. The generic forward_enumerator does the same for any container.", "quantifier": "every stored sequence, every start index, every number of next()/skip calls", "why_tests_cant": "two buffered enumerators advance in lock-step; the tests call next() once per enumerator", "anchors": ["gamma_vector.hpp: forward_enumerator<gamma_vector>", "gamma_bit_vector.hpp: forward_enumerator<gamma_bit_vector>", "forward_enumerator.hpp"]}
{"id": "C31", "title": "find_close returns the matching closing parenthesis", "statement": "In a bp_vector built from a balanced parentheses sequence of fewer than 2^31 bits, find_close(i) for an opening parenthesis i is the position j > i of the closing parenthesis such that the sequence strictly between i and j is balanced; no out-of-bounds read or assertion failure.", "quantifier": "every balanced sequence and every opening position", "why_tests_cant": "word / block / superblock / tree search paths depend on distance and on the whole intermediate excess profile", "anchors": ["bp_vector.cpp: find_close, find_close_in_word, find_close_in_block, search_min_tree, search_block_in_superblock, build_min_tree, excess_tables"]}
{"id": "C32", "title": "find_open returns the matching opening parenthesis", "statement": "In a bp_vector built from a balanced parentheses sequence of fewer than 2^31 bits, find_open(j) for a closing parenthesis j is the position i < j of the opening parenthesis such that the sequence strictly between is balanced; find_open and find_close are mutually inverse.", "quantifier": "every balanced sequence and every closing position", "why_tests_cant": "as find_close, backwards", "anchors": ["bp_vector.cpp: find_open, find_open_in_word, find_open_in_block, search_min_tree, build_min_tree"]}
{"id": "C33", "title": "enclose returns the tightest enclosing parenthesis", "statement": "For an opening parenthesis i that is not a top-level one, enclose(i) is the opening parenthesis of the nearest pair strictly containing the pair of i.", "quantifier": "every balanced sequence of fewer than 2^31 bits and every non-root opening position", "why_tests_cant": "as find_open", "anchors": ["bp_vector.hpp: enclose", "bp_vector.cpp: find_open"]}
{"id": "C34", "title": "excess is opening minus closing", "statement": "excess(pos) equals the number of opening minus the number of closing parentheses among the first pos positions for every pos <= size() (size() < 2^31).", "quantifier": "every bit sequence of which a bp_vector can be constructed and every pos <= size()", "why_tests_cant": "mixture of unsigned 64-bit and signed 32-bit arithmetic", "anchors": ["bp_vector.cpp: excess, get_block_excess"]}
{"id": "C35", "title": "excess_rmq returns the leftmost position of minimum excess", "statement": "For a <= b <= size() in a bp_vector built from a balanced sequence (< 2^31 bits), excess_rmq(a, b, e) returns the smallest p in [a, b] minimising excess(p) and sets e = excess(p).", "quantifier": "every balanced sequence and every a <= b <= size()", "why_tests_cant": "ranges within a word, block, superblock or across the tree; ties must resolve to the left on all paths", "anchors": ["bp_vector.cpp: excess_rmq, excess_rmq_in_word, excess_rmq_in_block, excess_rmq_in_superblock, find_min_superblock, build_min_tree"]}
{"id": "C36", "title": "cartesian_tree::rmq returns the leftmost minimum", "statement": "For a cartesian_tree built from v with any strict weak order comp, and 0 <= a <= b < v.size(), rmq(a, b) is the smallest index in [a, b] whose value is not greater (w.r.t. comp) than any other value in the range (v.size() < 2^30 - 1).", "quantifier": "every sequence over any type, every strict weak order, every range", "why_tests_cant": "correctness depends on the whole tree shape and tie-breaking", "anchors": ["cartesian_tree.hpp: builder::push_back, builder::finalize, build_from_range, rmq, size"]}
{"id": "C37", "title": "The cartesian tree representation is a balanced sequence of 2n+2 bits", "statement": "For every input v and comparator, the bit sequence handed to bp_vector is balanced, has 2*v.size()+2 bits, and size() returns v.size().", "quantifier": "every sequence and every comparator (even inconsistent ones); for size() fewer than 2^30-1 values", "why_tests_cant": "structural invariant over all inputs; bp_vector queries are only meaningful on balanced input", "anchors": ["cartesian_tree.hpp: builder, size"]}
{"id": "C38", "title": "topk returns the k largest entries in order", "statement": "topk_vector(v).topk(a, b, k) is the list of pairs (v[i], i) for i in [a, b] sorted by decreasing value and then increasing index, truncated to min(k, b-a+1) entries.", "quantifier": "every sequence of fewer than 2^30-1 values, every range a <= b < size(), every k", "why_tests_cant": "priority-queue exploration of the cartesian tree for every tree shape and every tie pattern", "anchors": ["topk_vector.hpp: topk, enumerator::next, enumerator::set, value_index_comparator"]}
{"id": "C39", "title": "The top-k enumerator visits every index of the range exactly once", "statement": "get_topk_enumerator(a, b) yields next() = true exactly b-a+1 times, producing each index in [a, b] exactly once in non-increasing value order, then false forever.", "quantifier": "every sequence of fewer than 2^30-1 values and every range", "why_tests_cant": "as topk, for complete enumerations", "anchors": ["topk_vector.hpp: enumerator"]}
{"id": "C40", "title": "freeze then map restores every structure", "statement": "For every structure of the library (bit_vector, rs_bit_vector, bp_vector, darray, darray64, elias_fano, the lists, gamma vectors, nibble_vector, cartesian_tree, topk_vector) map(y, freeze(x)) makes y field-by-field equal to x, so every query on y equals the query on x.", "quantifier": "every value of every structure, every flags word, every trailing content after the image", "why_tests_cant": "all sizes and contents of every nested vector", "anchors": ["mapper.hpp: freeze, map, freeze_visitor, map_visitor", "all map(Visitor&) members"]}
{"id": "C41", "title": "Byte accounting of freeze, map and size_of agrees", "statement": "freeze returns the number of bytes written to the stream, map returns the number of bytes consumed, these are equal, and both equal size_of(x) + 8 (the flags word).", "quantifier": "every value of every structure", "why_tests_cant": "depends on all nested sizes", "anchors": ["mapper.hpp: freeze_visitor::written, map_visitor::bytes_read, size_of"]}
{"id": "C42", "title": "size_tree_of is consistent with size_of", "statement": "size_tree_of(x) is a tree whose root size equals size_of(x), whose children are named after the non-POD fields in declaration order, and where each node's size is at least the sum of its children's sizes (the difference being the POD fields).", "quantifier": "every value of every structure", "why_tests_cant": "depends on all nested sizes", "anchors": ["mapper.hpp: sizeof_visitor, size_tree_of"]}
{"id": "C43", "title": "mappable_vector owns each buffer exactly once", "statement": "Under any sequence of construct-from-range, default-construct, steal, swap, clear, assign (other than of a range of the vector itself), map and destroy operations on any number of mappable_vectors, no buffer is freed twice, no buffer still referenced by a live vector is freed, and after destroying all vectors every allocated buffer has been freed.", "quantifier": "every finite operation history over any number of vectors", "why_tests_cant": "ownership errors need specific interleavings (e.g. steal into a mapped vector)", "anchors": ["mappable_vector.hpp: mappable_vector::{ctor,dtor,swap,clear,steal,assign}", "mapper.hpp: map_visitor::operator()(mappable_vector)"]}
{"id": "C44", "title": "vbyte codes round-trip and are self-delimiting", "statement": "append_vbyte(v, x) appends vbyte_size(x) bytes and decode_vbyte(v, offset, y) at the old end of v sets y = x and returns vbyte_size(x), whatever follows; hence any sequence of values appended can be decoded in order.", "quantifier": "all 64-bit values, all prefixes and suffixes, all sequences of values", "why_tests_cant": "2^64 values and every length boundary", "anchors": ["vbyte.hpp: vbyte_size, append_vbyte, decode_vbyte"]}
{"id": "C45", "title": "nibble_vector stores nibbles losslessly", "statement": "nibble_vector(v).size() = v.size() and nibble_vector(v)[i] = v[i] for every sequence of values < 16.", "quantifier": "every sequence of nibbles and every index", "why_tests_cant": "all lengths (odd/even) and contents", "anchors": ["nibble_vector.hpp: ctor, operator[], size"]}
{"id": "C46", "title": "int2nat and nat2int are mutually inverse", "statement": "nat2int(int2nat(x)) = x for every int64_t x and int2nat(nat2int(n)) = n for every uint64_t n.", "quantifier": "all 64-bit integers", "why_tests_cant": "2^64 inputs; extremes overflow", "anchors": ["util.hpp: int2nat, nat2int"]}
{"id": "C47", "title": "fast_getline returns exactly the lines of the file", "statement": "Repeated fast_getline calls return the successive lines of the input (with or without their newline characters, according to trim_newline), each exactly once and unmodified, including a last line without a newline and lines longer than the internal buffer, and then false.", "quantifier": "every file content (without NUL bytes) and every number of calls", "why_tests_cant": "depends on line length relative to the 65536-byte buffer and on the file ending", "anchors": ["util.hpp: fast_getline, trim_newline_chars"]}
{"id": "C48", "title": "buffer_line_iterator / mmap_lines iterate exactly over the lines of the buffer", "statement": "Iterating from begin() to end() yields the newline-separated lines of the buffer, each without its terminating newline and without one trailing carriage return, with no extra empty line after a final newline.", "quantifier": "every buffer content", "why_tests_cant": "every placement of newline and carriage return characters, including at the end of the buffer", "anchors": ["util.hpp: buffer_line_iterator, mmap_lines"]}
{"id": "C49", "title": "line_iterator / lines iterate exactly over the lines of the file", "statement": "Iterating over util::lines(f) yields exactly the sequence of lines that repeated fast_getline calls on f return.", "quantifier": "every file content", "why_tests_cant": "needs all file contents; iterators start state matters", "anchors": ["util.hpp: line_iterator, lines"]}
{"id": "C50", "title": "bp_vector works for every tree of depth < 2^31", "statement": "find_close, find_open and excess_rmq are correct for every balanced sequence whose excess stays below 2^31 (the limit documented at excess_t), in particular for vectors of 2^31 bits or more.", "quantifier": "every balanced sequence of any length with excess < 2^31", "why_tests_cant": "requires vectors of more than 256 MiB; no test builds one", "anchors": ["bp_vector.hpp: excess_t", "bp_vector.cpp: build_min_tree, search_min_tree, find_close"]}
{"id": "C51", "title": "Mapped arrays are naturally aligned", "statement": "After map from an 8-byte aligned image, every mappable_vector<T> of every structure points to an address aligned for T.", "quantifier": "every value of every structure", "why_tests_cant": "depends on lengths of all preceding arrays", "anchors": ["mapper.hpp: freeze_visitor, map_visitor", "darray.hpp: map", "elias_fano.hpp: map"]}
{"id": "C52", "title": "Mapping a truncated image never yields a complete structure", "statement": "If the byte image is cut short anywhere (crash during freeze), map does not produce a structure all of whose arrays lie inside the image.", "quantifier": "every structure value and every truncation point", "why_tests_cant": "every crash point of the writer", "anchors": ["mapper.hpp: map_visitor, freeze_visitor"]}
{"id": "C53", "title": "Elias-Fano space bound", "statement": "Building an elias_fano for capacity m >= 1 and universe n stores exactly floor(log2(n/m)) low bits per value and m + 2 + floor(n / 2^l) <= 3m + 1 high bits, with no slack words; the select indexes over the high bits have one entry per 1024 and per 32 positions and at most one overflow entry per 64 bits.", "quantifier": "every n, m and every storable sequence", "why_tests_cant": "space depends on n/m over the whole 64-bit range", "anchors": ["elias_fano.hpp: elias_fano_builder, init", "elias_fano_list.hpp", "darray.hpp"]}
{"id": "C54", "title": "rs_bit_vector space", "statement": "The rank index has exactly 2*ceil(n/512)+2 words, the select hint arrays exactly one entry per 1024 ones (zeros, including block padding) and at least one, and nothing is stored for hints that were not requested.", "quantifier": "every bit sequence and both flags", "why_tests_cant": "depends on all lengths and populations", "anchors": ["rs_bit_vector.hpp: build_indices"]}
{"id": "C55", "title": "bp_vector space", "statement": "The range min tree has one 2-byte entry per 256 bits and 2^H + s < 3s 4-byte entries for s superblocks of 8192 bits.", "quantifier": "every balanced sequence of 1 .. 2^31-1 bits", "why_tests_cant": "depends on all lengths", "anchors": ["bp_vector.cpp: build_min_tree"]}
{"id": "C56", "title": "darray and darray64 space", "statement": "A darray has ceil(p/1024) block entries, ceil(p/32) subblock entries and at most n/64 overflow entries for p positions in n bits, however the positions are distributed; darray64 has ceil(p/1024) and ceil(p/64) entries.", "quantifier": "every bit sequence; every list of gaps <= 64", "why_tests_cant": "depends on which blocks take the overflow path", "anchors": ["darray.hpp: build, flush_cur_block", "darray64.hpp"]}
{"id": "C57", "title": "Variable length codes take exactly their code length", "statement": "gamma_vector, gamma_bit_vector, elias_fano_compressed_list and nibble_vector store exactly the sum of the code lengths of their values (plus one terminating bit for the unary part), in arrays without slack words.", "quantifier": "every list of representable values", "why_tests_cant": "sum over all values", "anchors": ["gamma_vector.hpp", "gamma_bit_vector.hpp", "elias_fano_compressed_list.hpp", "nibble_vector.hpp"]}
{"id": "C58", "title": "Every structure a constructor builds survives freeze and map", "statement": "For every input within the size limits, the constructor succeeds and the structure it builds is restored exactly by freeze followed by map; in particular every value placed in a 16- or 32-bit array fits.", "quantifier": "every input of every constructor within the size limits", "why_tests_cant": "needs the range of every stored entry for all inputs", "anchors": ["mapper.hpp: freeze, map", "darray.hpp", "bp_vector.cpp", "elias_fano.hpp", "cartesian_tree.hpp", "topk_vector.hpp"]}
{"id": "C59", "title": "swap exchanges the complete state", "statement": "x.swap(y) exchanges every member of the two objects, for every class that has swap, also when x and y are the same object, and touches nothing else; util::dispose leaves its argument default constructed.", "quantifier": "every pair of objects of every class, every state", "why_tests_cant": "a forgotten member shows only for states in which it differs and is used later", "anchors": ["bit_vector.hpp: swap", "rs_bit_vector.hpp: swap", "bp_vector.hpp: swap", "darray.hpp", "darray64.hpp", "elias_fano.hpp", "elias_fano_list.hpp", "elias_fano_compressed_list.hpp", "gamma_vector.hpp", "cartesian_tree.hpp", "topk_vector.hpp", "nibble_vector.hpp", "util.hpp: dispose"]}
{"id": "C60", "title": "A default constructed object behaves like the empty one", "statement": "A default constructed structure is indistinguishable from one built from empty input: size() is 0, rank(0) is 0, and so on.", "quantifier": "every class; every value of the members the default constructor leaves uninitialised", "why_tests_cant": "uninitialised members have an arbitrary value; out-of-bounds reads may go unnoticed", "anchors": ["rs_bit_vector.hpp", "bp_vector.hpp", "elias_fano.hpp", "elias_fano_list.hpp", "elias_fano_compressed_list.hpp", "gamma_vector.hpp", "cartesian_tree.hpp"]}
{"id": "C61", "title": "A builder may be appended to itself", "statement": "b.append(b) has the same effect as appending a separate copy of b.", "quantifier": "every reachable builder state", "why_tests_cant": "aliasing; iterators invalidated or not depending on the size", "anchors": ["bit_vector.hpp: bit_vector_builder::append"]}
{"id": "C62", "title": "A Cartesian tree is canonical", "statement": "The cartesian_tree object depends only on the outcomes of the comparisons between entries; under strict weak orders two sequences of the same length give the same object if and only if all their range minimum queries have the same answers.", "quantifier": "every pair of sequences, value types and comparators; for the equivalence fewer than 2^30-1 values", "why_tests_cant": "quantifies over pairs of sequences and over comparators", "anchors": ["cartesian_tree.hpp: builder, rmq"]}
{"id": "C63", "title": "Different structures over the same data agree", "statement": "rank and select of rs_bit_vector invert each other; darray1/darray0 give the same select answers as rs_bit_vector select/select0 for every index in and out of range; elias_fano built from a bitmap gives the same rank, select and bits; the four integer containers built from the same list hold the same values.", "quantifier": "every bit sequence, every builder history, every list of integers within the limits of all containers, every index", "why_tests_cant": "relates several implementations on unboundedly many inputs, including sizes no test reaches", "anchors": ["rs_bit_vector.hpp: rank, select, select0", "darray.hpp: select", "elias_fano.hpp: rank, select, operator[]", "elias_fano_list.hpp", "elias_fano_compressed_list.hpp", "gamma_vector.hpp", "gamma_bit_vector.hpp"]}
{"id": "C64", "title": "bp_vector navigates ordered forests", "statement": "On the balanced sequence of an ordered forest: find_close/find_open delimit the subtree, excess is the depth, rank/select convert preorder number and position, enclose is the parent, the bits next to the parentheses reveal first child and next sibling, and enclose of excess_rmq is the lowest common ancestor.", "quantifier": "every ordered forest of fewer than 2^30 nodes, every node, every pair of nodes", "why_tests_cant": "quantifies over all forest shapes and depths; errors depend on where nodes fall relative to block boundaries", "anchors": ["bp_vector.hpp: find_close, find_open, enclose, excess, excess_rmq", "rs_bit_vector.hpp: rank, select"]}
{"id": "C65", "title": "Several objects can share one stream", "statement": "Objects of any classes frozen one after the other to one stream, possibly after and before other data, are all restored by mapping each at the address where the previous map ended, and the byte counts of freeze and map agree.", "quantifier": "every list of objects of all classes, every prefix and suffix of the stream", "why_tests_cant": "depends on every size and on the order of the objects", "anchors": ["mapper.hpp: freeze, map, bytes_read, written"]}
{"id": "C66", "title": "Images determine objects", "statement": "Two different objects of a class never have images one of which is a prefix of the other extended by anything, and freezing a mapped object reproduces the image it was mapped from byte for byte.", "quantifier": "every pair of objects of every class", "why_tests_cant": "quantifies over pairs of objects", "anchors": ["mapper.hpp: freeze_visitor, map_visitor"]}
{"id": "C67", "title": "Queries run in bounded time", "statement": "darray select reads at most 1025 words and darray64 select at most 65, whatever the size; the binary searches of rs_bit_vector select/select0 take at most k steps on up to 512*(2^k-1) bits, and with hints only as many as the distance of the neighbouring hinted ones demands; every walk in the bp_vector tree takes at most j+2 steps on up to 8192*2^j bits; the top-k heap has at most k+1 elements after k calls.", "quantifier": "every bit sequence, every balanced sequence of fewer than 2^31 bits, every sequence of fewer than 2^30-1 values, every index, every number of calls", "why_tests_cant": "worst cases need adversarial inputs of huge size; a test can measure time only on the inputs it has", "anchors": ["darray.hpp: select", "darray64.hpp: select", "rs_bit_vector.hpp: select, select0", "bp_vector.cpp: search_min_tree, find_min_superblock", "topk_vector.hpp: enumerator::next"]}
{"id": "C68", "title": "The comparator of a cartesian_tree decides ties", "statement": "Built with <, rmq returns the leftmost minimum; built with <=, the rightmost minimum; built with >, the leftmost maximum; and for a comparator that is no order at all rmq still returns the index whose element is preferred to everything on its left and to which nothing on its right is preferred, whenever the range has one.", "quantifier": "every sequence of fewer than 2^30-1 values, strict weak order (resp. arbitrary comparator) and range", "why_tests_cant": "quantifies over all comparators and sequences; the tests use std::less on random values only", "anchors": ["cartesian_tree.hpp: builder::push_back, rmq"]}
{"id": "C69", "title": "A builder handed to a constructor no longer affects the vector made of it", "statement": "After bit_vector(&builder), no sequence of operations on the builder is observable through the vector.", "quantifier": "every history before, every history afterwards", "why_tests_cant": "aliasing bug visible only through the padding bits after particular interleavings", "anchors": ["bit_vector.hpp: bit_vector(bit_vector_builder*), bit_vector_builder::push_back, append_bits", "mappable_vector.hpp: steal"]}
{"id": "C70", "title": "Answers do not depend on the signedness of char", "statement": "excess_rmq and cartesian_tree::rmq return the specified answers on platforms with signed and with unsigned char.", "quantifier": "every balanced sequence / value sequence, every range, both platforms", "why_tests_cant": "tests run on the developer's platform only", "anchors": ["bp_vector.cpp: excess_tables::m_fwd_exc, excess_rmq_in_word"]}
{"id": "C71", "title": "topk answers for different parameters are consistent", "statement": "topk(a,b,k) is a prefix of topk(a,b,k') for k <= k' and has min(k, b-a+1) entries; its first entry is the one rmq of the maximum tree finds; the entries of topk(a,b,k) inside a subrange come first in topk of the subrange; and the heap implementation of the standard library has no influence.", "quantifier": "every sequence of fewer than 2^30-1 values, totally ordered value type, pair of ranges, k, k', pair of heap implementations", "why_tests_cant": "relates pairs of calls over all parameters", "anchors": ["topk_vector.hpp: topk, enumerator"]}
{"id": "C72", "title": "Parenthesis queries on unbalanced sequences never answer wrongly inside the vector", "statement": "For a sequence whose prefixes never close more than they open, find_close answers position j of the vector exactly if j matches i; find_open answers p exactly if p is the nearest opening parenthesis still open before i; enclose likewise; a parenthesis that is enclosed by none, or that is never closed, is not given a position of the vector as an answer. Conversely the assertions of the constructor reject every sequence some prefix of which closes more than it opens.", "quantifier": "every such sequence with fewer than 2^31 parentheses and excess below 2147483584, every position, both hint settings, every value of over-wide shifts", "why_tests_cant": "the tests build balanced sequences only; unmatched parentheses in every block position and tree shape cannot be enumerated", "anchors": ["bp_vector.cpp: find_close, find_open, enclose, search_min_tree"]}
{"id": "C73", "title": "With assertions enabled a call returns exactly for arguments in its domain", "statement": "operator[], get_bits (len <= 64), get_word, predecessor and successor of bit_vector, rank/rank0/select/select0, darray select, every elias_fano query, operator[] of the lists, gamma and nibble vectors, rmq over two different positions and topk return normally exactly if the arguments are in range (and the answer exists); the constructors of elias_fano, the lists, the gamma and nibble vectors and bp_vector accept exactly the inputs they can store; find_close and enclose reject closing parentheses, excess_rmq rejects inverted ranges. Not rejected: get_bits with len > 64, successor0 with no zero left when the last word has padding, excess_rmq with a right end in the padding, rmq(a,a), builder set beyond the size.", "quantifier": "every container content (within the size limits of C20-C27, C34 and C38), every argument (including 2^64-1), both hint settings, with and without rank index", "why_tests_cant": "the tests call the functions inside their domain only; a missing or too strong assertion needs the full argument range", "anchors": ["bit_vector.hpp", "rs_bit_vector.hpp", "darray.hpp", "darray64.hpp", "elias_fano.hpp", "gamma_vector.hpp", "gamma_bit_vector.hpp", "nibble_vector.hpp", "bp_vector.cpp: build_min_tree, excess_rmq", "cartesian_tree.hpp: rmq", "topk_vector.hpp"]}
{"id": "C74", "title": "Arithmetic modulo 2^64 never changes an answer", "statement": "With every size, position and count a 64-bit word that wraps: each builder history of at most 2^63 bits produces exactly the specified bits, and get_bits, get_word, predecessor, successor, rank, rank0, select and select0 answer according to the specification for every 64-bit argument, also where pos + len or a table index wraps; arguments out of range are rejected. Not caught: bit_vector_builder(n) with n > 2^64 - 64, set_bits with pos + len >= 2^64, zero_extend beyond 2^64 bits.", "quantifier": "every builder history with at most 2^63 bits, every 64-bit argument, both hint settings, every value of over-wide shifts", "why_tests_cant": "wrapping needs arguments near 2^64 or vectors of exabytes; no test can build them", "anchors": ["bit_vector.hpp: bit_vector_builder, get_bits, get_word, predecessor, successor", "rs_bit_vector.hpp: rank, select, select0", "rs_bit_vector.cpp: build_indices", "util.hpp: ceil_div"]}
{"id": "C75", "title": "darray, darray64 and elias_fano give the specified answers in 64-bit arithmetic for every 64-bit argument", "statement": "With every size, position and count a 64-bit word that wraps: darray1, darray0 and darray64 count and select the ones or zeros; an elias_fano answers select, rank, operator[], delta, select_range, predecessor1 and successor1 as specified and gives no answer when there is none, also where the code computes 0 - 1 or (2^64 - 1) + 1 on the way. Not covered: capacity 0 with a universe of nearly 2^64, whose high part wraps.", "quantifier": "every builder history of at most 2^63 bits; every sorted sequence, universe and capacity at most 2^61; every 64-bit argument; every value of over-wide shifts", "why_tests_cant": "the wrapping arguments are single values out of 2^64 and the block inventories only reach their limits for vectors no test can allocate", "anchors": ["darray.hpp: darray, select, flush_cur_block", "darray64.hpp", "elias_fano.hpp: elias_fano_builder, select, rank, operator[], predecessor1, successor1, delta, select_range"]}
{"id": "C76", "title": "enumerators, Elias-Fano lists and gamma vectors give the specified answers in 64-bit arithmetic", "statement": "With every counter, size, position and answer a 64-bit word that wraps: bit_vector::enumerator and unary_enumerator return what the stored bits say and report the right position() for every history of calls outside the two patterns of C07 and C08; select_enumerator lists the stored sequence from any start; elias_fano_list and elias_fano_compressed_list return the stored integers and reject every index out of range; gamma_vector and gamma_bit_vector and their forward enumerators return the stored integers.", "quantifier": "every builder history of at most 2^63 bits and every history of calls; every sorted sequence of capacity at most 2^61; every list of integers that fits (at most 2^56 for the gamma vectors, sum below 2^64-1 for elias_fano_list); every 64-bit index", "why_tests_cant": "the counters m_avail and m_chunks_avail wrap below zero on histories a test has to guess, and the sums only reach their limits on inputs no test can allocate", "anchors": ["bit_vector.hpp: enumerator, unary_enumerator", "elias_fano.hpp: select_enumerator", "elias_fano_list.hpp", "elias_fano_compressed_list.hpp", "gamma_vector.hpp", "gamma_bit_vector.hpp"]}
{"id": "C77", "title": "unary_enumerator: exact behaviour for every history of calls", "statement": "For every history of next, skip, skip_no_move and skip0 calls the answers and position() after each call are those of a small state machine on the bits of the allocated words: the state is the position and whether next has returned the one there; skip0 counts such a one as a zero, and zeros in the padding behind the last bit are found. The code reads out of bounds exactly if a one or zero is asked for that the words do not hold. This includes the histories for which C08 fails.", "quantifier": "every bit sequence, every start position in the words, every history of calls; in wrapping 64-bit arithmetic for every builder history below 2^63 bits", "why_tests_cant": "the wrong answers appear only for particular interleavings, and a test can only sample histories", "anchors": ["bit_vector.hpp: unary_enumerator::next, skip, skip_no_move, skip0"]}
{"id": "C78", "title": "bit_vector::enumerator: exact behaviour for every history of calls", "statement": "For every history of next, take and skip_zeros calls the answers and position() after each call are those of a small state machine whose state is the position and the interval of stored bits still in the buffer; the code fails exactly if that machine has no step (a refill at or beyond the end, a take of more than 64 bits, no one left). This includes the histories for which C07 fails: a skip_zeros after a nonzero take(64) answers from the bits already returned, then next returns stale bits and afterwards zeros without ever noticing the end, and a later skip_zeros moves the position back and returns a count modulo 2^64.", "quantifier": "every builder history of at most 2^63 bits, every 64-bit start position, every history of at most 2^56 calls", "why_tests_cant": "the wrong answers depend on the interleaving of calls and on a counter that wraps below zero; a test can only sample histories", "anchors": ["bit_vector.hpp: enumerator::next, take, skip_zeros, fill_buf"]}
{"id": "C79", "title": "topk_vector over the containers of the library", "statement": "A topk_vector over mappable_vector, elias_fano_compressed_list, elias_fano_list, gamma_vector or gamma_bit_vector built from 64-bit values the container can store answers size(), operator[], topk for every range and count and the enumerators (also reused ones) as the sequence of values demands, and is restored by freezing and mapping it. For any other container this holds whenever the container returns what it was made from and the range is ordered as the container's values are; if it is not (negative numbers, which become large unsigned ones), topk may rank wrongly.", "quantifier": "every sequence of fewer than 2^30-1 values the container can store, every range and count, every correct heap implementation", "why_tests_cant": "the test uses one container and random values; the claim is about all sequences, all ranges and all containers", "anchors": ["topk_vector.hpp: constructor, topk, enumerator, map", "elias_fano_compressed_list.hpp", "elias_fano_list.hpp", "gamma_vector.hpp", "gamma_bit_vector.hpp", "mappable_vector.hpp"]}
{"id": "C80", "title": "Compressed lists from ranges of any integer type", "statement": "elias_fano_compressed_list, gamma_vector and gamma_bit_vector built from a range whose elements have any 8-, 16-, 32- or 64-bit integer type: the construction succeeds exactly if each element plus 1 (plus 2 for gamma_bit_vector) fits the promoted element type and no element is -1 (nor -2 for gamma_bit_vector), and then operator[] returns each element converted to uint64_t. In particular a std::vector<uint32_t> holding 2^32-1 is rejected, although the value can be stored from a std::vector<uint64_t>.", "quantifier": "every fixed-width integer type, every sequence of its values (below 2^57 for elias_fano_compressed_list)", "why_tests_cant": "tests use ranges of one type and never its largest value; the claim is about every type and every value", "anchors": ["elias_fano_compressed_list.hpp: constructor", "gamma_vector.hpp: constructor", "gamma_bit_vector.hpp: constructor"]}
{"id": "C81", "title": "fast_getline: exact behaviour on every file", "statement": "For every file content, including NUL bytes, lines of any length and a missing last newline: the file falls into pieces (ended by a newline, by 65535 bytes or by the end); repeated fast_getline calls return, for each group of pieces up to one that has a newline and no NUL, the bytes of the pieces before their first NUL, and for the pieces left over the same followed by the visible bytes of the last piece once more. The calls are undefined exactly if a piece beginning a line begins with NUL. Hence the file is returned unmodified exactly if it has no NUL and is empty or ends with a newline. With trim_newline the same lines are returned trimmed; line_iterator yields an empty line first.", "quantifier": "every file content and every sufficient number of calls", "why_tests_cant": "depends on the placement of NUL and newline bytes relative to multiples of 65535; a test can only sample files", "anchors": ["util.hpp: fast_getline, trim_newline_chars, line_iterator"]}
{"id": "C82", "title": "Mapped structures: exactly which objects are aligned", "statement": "After freeze and map at an 8-byte aligned address every element of every vector lies at a multiple of its size exactly if: for bp_vector the number of 256-bit blocks is even (cartesian_tree and topk_vector over n values: blocks of 2n+2 bits); for darray nothing overflowed or the number of 32-position subblocks is a multiple of 4; for elias_fano, elias_fano_list and the gamma vectors the stated condition on the number of elements (subblocks a multiple of 4, or nothing stored behind them); never for an elias_fano_compressed_list with a nonzero value; always for bit_vector, rs_bit_vector, darray64 and nibble_vector.", "quantifier": "every object the constructors build, every flags value", "why_tests_cant": "x86 tolerates misaligned loads, so a test sees nothing; whether the access is undefined depends on the size of each object", "anchors": ["mapper.hpp: map_visitor", "bp_vector.hpp, darray.hpp, elias_fano.hpp, gamma_vector.hpp: map members"]}
{"id": "C83", "title": "bit_vector_builder: what is left when memory runs out", "statement": "For every history of builder calls in which any growth of the word vector may throw std::bad_alloc and the caller catches it and goes on: exactly the calls throw whose growth fails; push_back then leaves the builder unchanged; after a failed append_bits, one_extend, zero_extend or append size() is ahead of the stored words, so that the bit_vector constructor's assertion fails, until a zero_extend with memory at hand makes it the stored words followed by zeros. Repeating the failed append_bits instead corrupts bits appended before, and on an empty builder push_back then dereferences an uninitialised pointer.", "quantifier": "every sequence of calls, every choice of failing growths", "why_tests_cant": "tests never run out of memory; every allocation of every history would have to be made to fail", "anchors": ["bit_vector.hpp:40-165"]}
{"id": "C84", "title": "mappable_vector: ownership when memory runs out or an iterator throws", "statement": "In every program on any number of mappable_vectors (construction, steal, swap, clear, assign, mapping, destruction) in which any allocation may throw std::bad_alloc and any iterator of a source range may throw during the copy, the caller catching the exceptions: nothing is freed twice or used after being freed; a failed construction leaves no object, a failed assign an empty vector, a failed steal a vector whose size() is that of the source but which has no elements (every access is undefined) and which can be assigned, stolen into, swapped, cleared or destroyed; every allocated buffer has exactly one owner, except one lost buffer for every iterator that threw.", "quantifier": "every program, every choice of failures", "why_tests_cant": "tests never run out of memory, and interleavings of operations and failures are unbounded", "anchors": ["mappable_vector.hpp:33-87"]}
{"id": "C85", "title": "bp_vector and cartesian_tree in arithmetic modulo 2^64", "statement": "With every position, block number and tree node a 64-bit word that wraps, and with the conversions to int32_t the code makes: a bp_vector built from any history of fewer than 2^31 balanced bits (and up to 2^63 bits where construction succeeds) answers find_close, find_open, enclose, excess and excess_rmq according to the specification; find_close and enclose reject every 64-bit position that holds no opening parenthesis, excess every position beyond the end. cartesian_tree::rmq returns the leftmost minimum, and rejects every range of two or more positions that ends beyond the last value, also where n - b - 1 wraps; rmq(a, a) returns a for every a.", "quantifier": "every history with balanced bits, both hint settings, every 64-bit argument, every value of over-wide shifts; every strict weak order, every sequence of fewer than 2^30 - 1 values", "why_tests_cant": "wrapping needs arguments near 2^64 or trees with 2^50 superblocks", "anchors": ["bp_vector.cpp: build_min_tree, find_close, find_open, enclose, excess_rmq, search_min_tree, find_min_superblock", "bp_vector.hpp", "cartesian_tree.hpp: rmq, size, build_from_range"]}
{"id": "C86", "title": "bp_vector searches with assertions compiled out", "statement": "With NDEBUG, in arithmetic modulo 2^64: every call of find_close, find_open and enclose that answers with assertions enabled terminates with the same answer, for every content of the object's members; so on balanced sequences they find the matching and enclosing parentheses. find_open and enclose at a position inside no pair (for instance the root of a tree) never return: they read outside the rank table if the position is below 256, and otherwise the ascent in the min tree goes on for ever. find_close of an opening parenthesis that is never closed can return 2^64 - 1.", "quantifier": "every object, every 64-bit position, every value of over-wide shifts; every sequence of fewer than 2^31 bits in which no prefix closes more parentheses than it opens", "why_tests_cant": "non-termination cannot be observed by a test, and agreement of the two builds ranges over all contents and positions", "anchors": ["bp_vector.cpp: find_close, find_open, search_min_tree, search_block_in_superblock, in_node_range, find_open_in_block", "bp_vector.hpp: enclose"]}
{"id": "C87", "title": "topk_vector, nibble_vector and vbyte in arithmetic modulo 2^64", "statement": "With indices, counts and b - a + 1 as 64-bit words that wrap: a topk_vector over mappable_vector, elias_fano_list, elias_fano_compressed_list, gamma_vector or gamma_bit_vector returns its size and values, topk(a, b, k) returns the min(k, b - a + 1) largest entries of every range in order of rank with ties by position, also for k near 2^64, and enumerators deliver the same, whatever state they were in; a range with b < a or ending beyond the vector is rejected although b - a + 1 wraps. nibble_vector returns every nibble and rejects every other 64-bit index. append_vbyte, whose loop ends by wrapping b to 2^64 - 1, appends 1 to 10 bytes; decode_vbyte at that offset returns the value and that number of bytes.", "quantifier": "every sequence of fewer than 2^30 - 1 values the container accepts, every heap implementation the C++ standard allows, every 64-bit a, b, k and every earlier enumerator state; every range of numbers below 16; every byte vector, every 64-bit value and offset", "why_tests_cant": "wrapping shows only for arguments near 2^64, and the heap functions are unspecified between permitted orders", "anchors": ["topk_vector.hpp: topk, get_topk_enumerator, enumerator::next, enumerator::set", "nibble_vector.hpp", "vbyte.hpp: append_vbyte, decode_vbyte"]}
{"id": "C88", "title": "freeze to a stream or file that fails", "statement": "Whatever the stream does, freeze returns the number of bytes of the complete image. What reaches the file is a prefix of the image (after what the stream held before); it is the complete image if the state of the stream is good after a successful flush, and if the file could not be opened it stays as it was. A proper prefix never yields a usable object: mapping it reads outside it or leaves a vector that is not inside. Conversely, for every object and every length k there is a run of freeze(x, filename) that leaves just the first k bytes and returns the full count, so the count detects nothing.", "quantifier": "all thirteen serialisable classes, every representable object, every name, all flags, every earlier content, every sequence of outcomes of the writes and of closing the file", "why_tests_cant": "disk-full and I/O errors at every possible byte cannot be provoked one by one", "anchors": ["mapper.hpp: freeze (both overloads), freeze_visitor"]}
{"id": "C89", "title": "map accepts exactly the images that freeze writes", "statement": "For arbitrary bytes: if map succeeds without leaving the file and every vector of the mapped object can be read, then the first n bytes, n being the returned count, are exactly what freeze writes for the object seen (with the flags word of the image), and each of its fields is representable. With the warmup flag map stays inside the file just if that is so, and the result is the same. If the returned count is at most the file size and no element count times element size exceeds 64 bits, every vector can be read; the count alone is no check, since for an element count of 2^61 the size wraps and map returns exactly the file size for a vector outside the file.", "quantifier": "all thirteen serialisable classes, every byte string of fewer than 2^60 bytes, all map flags", "why_tests_cant": "quantifies over all corrupted files", "anchors": ["mapper.hpp: map, map_visitor, map_flags::warmup"]}
{"id": "C90", "title": "size_node::dump prints the tree faithfully", "statement": "dump writes one line for each node, each node before its children, with four spaces for each level, the name, ': ' and the size in decimal. If no name contains a newline or begins with a space, the text determines the whole tree: names, sizes and nesting. The trees that size_tree_of returns for the classes of the library have such names, provided the friendly name of the caller has.", "quantifier": "all trees; all thirteen serialisable classes, every representable object", "why_tests_cant": "injectivity is about all pairs of trees", "anchors": ["mapper.hpp: size_node::dump, size_tree_of"]}
{"id": "C91", "title": "line_iterators sharing a file", "statement": "Copies of a line_iterator, and iterators made from the same FILE*, share what is still to be read. However increments are interleaved over any number of iterators and files, the i-th increment made on a file by any of them obtains the i-th line of that file (trimmed if that iterator trims), and nothing once the lines are used up: every line is obtained just once. An increment leaves the line of every other iterator alone and does not put other iterators at the end. Two iterators are equal just if they have the same FILE* or both are at an end.", "quantifier": "all files that fast_getline can read, all programs of constructions, copies, assignments and increments", "why_tests_cant": "unbounded interleavings of copies and increments over arbitrary files", "anchors": ["util.hpp: line_iterator"]}
{"id": "C92", "title": "stl_string_adaptor makes a prefix-free code", "statement": "stl_string_adaptor yields the bytes of the string followed by one NUL, identity_adaptor its argument. On strings without NUL bytes no range is a prefix of the range of another string, and the ranges compare lexicographically as the strings do.", "quantifier": "all pairs of strings", "why_tests_cant": "prefix-freeness and order preservation are about all pairs of strings", "anchors": ["util.hpp: identity_adaptor, stl_string_adaptor"]}
{"id": "C93", "title": "cartesian_tree with an arbitrary comparator", "statement": "Whatever the comparator does, strict weak order or not, construction succeeds and rmq(a, b) with a <= b < n fails no assertion and answers an index in [a, b]: the first index from a on that is still in the running after v[b], where each element puts out the ones before it, one after the other, as long as it is preferred to the one whose turn it is. A value that compares false with everything, such as NaN, at p in [a, b] makes the answer that for [a, p-1] (p if a = p): everything behind it is ignored.", "quantifier": "all sequences of fewer than 2^30 - 1 values, all comparators, all ranges", "why_tests_cant": "quantifies over all functions as comparators; a test tries a few orders", "anchors": ["cartesian_tree.hpp: builder::push_back, rmq"]}
{"id": "C94", "title": "topk_vector when the comparisons are not an order", "statement": "Whatever < and == of the value type do, and if of push_heap and pop_heap only is known that they rearrange the queue, topk(a, b, k) fails no assertion and returns the first k entries of one arrangement of the entries of the range: min(k, b-a+1) entries with distinct indices in the range, each with the value at its index. The enumerator delivers the same arrangement, each entry once, whatever it was used for before.", "quantifier": "all sequences of fewer than 2^30 - 1 values, all comparison operators, all rearranging heap functions, all ranges and k", "why_tests_cant": "quantifies over comparison operators and heap implementations", "anchors": ["topk_vector.hpp: topk, enumerator"]}
{"id": "C95", "title": "Cost of building a Cartesian tree and of enumerating the top entries", "statement": "Building a cartesian_tree over n > 0 values calls the comparator at most 2n - 2 times, whatever it answers. Getting a top-k enumerator for [a, b] and calling next() k times makes at most 2k + 1 calls of rmq and at most one for each index of the range, exactly one for each index once everything has been delivered.", "quantifier": "all sequences of fewer than 2^30 - 1 values, all comparators, all ranges, all k, all rearranging heap functions", "why_tests_cant": "an amortised bound for all inputs; a test measures the inputs it has", "anchors": ["cartesian_tree.hpp: builder::push_back", "topk_vector.hpp: enumerator::next"]}
{"id": "C96", "title": "Which words the enumerators read", "statement": "A unary_enumerator begun at p reads the word of p and then, with each call, exactly the words behind the current one up to that of the bit the call looks for; without skip_no_move every word between the first and the last position is read exactly once, in order. An enumerator calls fill_buf at most once a call and once for 64 bits passed; n reads of w bits take one call for 64 / w reads, rounded up.", "quantifier": "all bit vectors, positions and histories of calls (for the enumerator: those of C07)", "why_tests_cant": "memory traffic is not observable through the interface, and an amortised bound concerns all histories", "anchors": ["bit_vector.hpp: unary_enumerator", "bit_vector.hpp: enumerator"]}
{"id": "C97", "title": "A top-k enumeration that runs out of memory", "statement": "If memory runs out in next() of a topk_vector enumerator and the caller catches the exception and goes on: only a call made with the queue full and no memory at hand throws; the call that throws has still made the next entry of the ranking current; the entries made current are a subsequence of the ranking, in its order; and each exception loses the entries of exactly one non-empty interval of indices just behind the entry made current, nothing else.", "quantifier": "all sequences of fewer than 2^30 - 1 values, all strict total orders, all heap functions the C++ standard allows, all ranges, all patterns of spare room and failing allocations", "why_tests_cant": "needs failing allocations at chosen calls, and all patterns of them", "anchors": ["topk_vector.hpp: enumerator::next"]}
{"id": "C98", "title": "Exceptions out of the other builders", "statement": "The reservation in the constructor of elias_fano_builder never wraps and suffices: no push_back allocates afterwards. If calls of cartesian_tree::builder::push_back throw (no memory, or the comparator or the copying of the value throws) and the caller goes on, then the builder is that of the other values if no failed call has changed the number of bits, and otherwise the finished sequence has more closing than opening parentheses and the tree's constructor fails an assertion; n calls never need more room than builder(n) reserves. An exception out of darray64::builder::append1 leaves the builder unchanged only if no zeros were to be appended and the bit vector could not grow; repeating the call otherwise gives wrong answers.", "quantifier": "all universes, capacities and sequences that may be stored; all comparators, values and patterns of failures; all builders and arguments up to 64", "why_tests_cant": "needs exceptions at chosen points of chosen calls, and all histories of them", "anchors": ["elias_fano.hpp: elias_fano_builder", "cartesian_tree.hpp: builder::push_back", "darray64.hpp: builder::append1"]}
{"id": "C99", "title": "Byte order: what depends on it", "statement": "On a machine of either byte order, freezing a structure and mapping the image on a machine of the same order restores it and both return the same count; an image (below 4 GB, with at least one vector element) can never be read on a machine of the other order, because some vector then reaches outside it; get_word56 on a big-endian machine answers correctly at positions in the first byte of a word, at all other positions its first bits come from the end of the next word.", "quantifier": "for all bit sequences and positions, all structures, flags and names, both byte orders", "why_tests_cant": "tests run on one machine, of one byte order, and never move an image to another", "anchors": ["bit_vector.hpp:280-285", "mapper.hpp:53-145"]}
{"id": "C100", "title": "decode_vbyte on arbitrary bytes", "statement": "At any offset of any byte vector decode_vbyte reads up to and including the first byte below 128, and returns the number these bytes spell in base 128 modulo 2^64 and their count; if there is no such byte it reads past the end. The codes append_vbyte writes are exactly those below 2^64 without a leading zero digit (0x80): all others are decoded too, but are no codes of the encoder.", "quantifier": "for all byte vectors and offsets; for all codes", "why_tests_cant": "there is no test of vbyte.hpp, and byte strings not written by the encoder are unbounded in number", "anchors": ["vbyte.hpp:7-39"]}
{"id": "C101", "title": "What enumerating a compressed sequence reads", "statement": "k successive calls of next() of elias_fano::select_enumerator, begun at any value i, read every 64-bit word of the high part from that of value i to that of value i+k-1 exactly once and in order, and one word of the low part per 64/l values (l = floor(log2(n/m)); none if l is 0), at the bits (i + j*(64/l))*l. The forward_enumerator of gamma_vector and gamma_bit_vector reads every word of the high part from its start to the end of the last value exactly once and in order, and fills the low buffer at most once per value and at most twice for 65 bits of the low part, plus once.", "quantifier": "for all storable sequences, all start indices and all numbers of values", "why_tests_cant": "the tests see the values, not the words read; a re-read or a wasted refill gives the same answers", "anchors": ["elias_fano.hpp:201-252", "gamma_vector.hpp:81-119", "gamma_bit_vector.hpp:90-133"]}
{"id": "C102", "title": "Bit vectors and sparse sequences with assertions compiled out", "statement": "With NDEBUG every query whose preconditions hold has the answer of a checked build. For the other arguments: bit_vector answers as if the zeros that fill the last word belonged to the sequence, and is undefined beyond that word; rs_bit_vector::rank answers exactly where it reads inside its arrays, with the number of ones below the position; rs_bit_vector::select, darray1, darray64 and elias_fano::select, delta, select_range never answer for a missing element (the call is undefined instead), for numbers below 2^56 in the case of rs_bit_vector::select; rs_bit_vector::select0 (below 2^56) and darray0 may answer a zero of the padding, never another position; elias_fano::rank, access, predecessor1 and successor1 beyond the universe give the answer of the sequence if they answer.", "quantifier": "for all histories of the builder up to 2^63 bits, all storable sequences and all 64-bit arguments", "why_tests_cant": "the tests call the queries within their preconditions only and are built with assertions", "anchors": ["bit_vector.hpp:243-345", "rs_bit_vector.hpp:51-152", "darray.hpp:74-105", "darray64.hpp:76-102", "elias_fano.hpp:109-199", "broadword.hpp:86-101"]}
{"id": "C103", "title": "Queries on untrusted objects with assertions enabled", "statement": "With assertions enabled, the random-access queries never access memory outside of the vectors of the object and always terminate, whatever the fields of the object hold (a size that does not fit the words, block indexes or a minimum tree of any content, as a mapped file may have): bit_vector and its enumerator, rs_bit_vector with at least one pair of counts, darray, darray64, elias_fano, the integer lists, nibble_vector, decode_vbyte, bp_vector and cartesian_tree. The outcome is a value or a failed assertion; undefined arithmetic is met only as follows: get_bits and take with more than 64 bits, elias_fano with l of at least 64, a darray block of -2^63, elias_fano_compressed_list and gamma_bit_vector with a gap that makes them shift by 64 bits or more, and the excess arithmetic and interval shifts of bp_vector. It is false of num_ones (hence rank(size()) and select) of an rs_bit_vector without counts, and of the constructors of the enumerators of elias_fano, gamma_vector and gamma_bit_vector, which read through a plain pointer at a position no assertion has looked at. The same holds of unary_enumerator::next, which terminates from any state and leaves the words exactly if no bit is set in its buffer nor in a later word. Where there is a value it is that of the 64-bit model.", "quantifier": "for all contents of the objects (vectors of fewer than 2^64 elements), all arguments and all histories of the enumerator", "why_tests_cant": "the tests query objects built by the library only; corrupted contents are unbounded in number and an out-of-bounds read often goes unnoticed", "anchors": ["mappable_vector.hpp:101-104", "bit_vector.hpp:243-345", "bit_vector.hpp:437-444", "rs_bit_vector.hpp:43-152", "darray.hpp:74-105", "darray64.hpp:76-102", "elias_fano.hpp:109-222", "bp_vector.cpp:75-625", "cartesian_tree.hpp:106-137", "bit_vector.hpp:451-463"]}
{"id": "C104", "title": "Integer sequences and enumerators without assertions", "statement": "In a build with NDEBUG, element access of elias_fano_list, elias_fano_compressed_list, gamma_vector and gamma_bit_vector gives the stored value at every index inside and never a value at an index outside (the call is undefined behaviour: a read outside an array or a shift by 64 bits or more). Enumerators (the generic forward_enumerator on the two lists, the enumerators of the gamma vectors with skip, elias_fano::select_enumerator), created at any position, never return more values than remain. nibble_vector accepts any values: it keeps the low four bits of each, and the next four bits of a value at an even position are mixed into the value after it; for values below 16 it holds exactly the values, and it answers position size() with 0 if the size is odd. Wherever the checked code answers, the code without assertions gives the same answer, whatever the objects hold.", "quantifier": "for all storable sequences, all 64-bit indices, all lengths and histories of enumeration; for all contents (same answers)", "why_tests_cant": "the tests are built with assertions and stay inside the sequences; what the code does outside depends on the words behind the last code", "anchors": ["elias_fano_list.hpp:38-41", "elias_fano_compressed_list.hpp:43-48", "forward_enumerator.hpp:15-18", "gamma_vector.hpp:41-109", "gamma_bit_vector.hpp:47-124", "elias_fano.hpp:203-240", "nibble_vector.hpp:17-61", "broadword.hpp:177-183"]}
{"id": "C105", "title": "What the test drivers accept", "statement": "For an arbitrary tested object (any functions at all), the drivers of the project's tests run to their end exactly if: test_equal_bits - size and all bits are right; test_rank_select0/1 - rank, select, predecessor and successor are right at every position inside the vector that has an answer; test_delta - the gaps are the differences of select; test_select_enumeration - the enumerator gives the positions of the ones; test_parentheses - the sequence is balanced and find_close, find_open and enclose are right below the claimed size; test_rmq of bp_vector and of cartesian_tree, test_topk - over all sequences of values of rand() together, all range minimum positions and the first ten entries of every ranking are right; the container loops - size and values are right. Blind spots are proved as well: a vector without ones tells nothing about select, predecessor1 and successor1; an object claiming to be empty passes test_parentheses; with a single value the driver of cartesian_tree reads outside its vector.", "quantifier": "for all tested objects (arbitrary partial functions), all vectors, all sequences of rand() values", "why_tests_cant": "a test suite cannot say which wrong implementations it would let through; the statement ranges over all implementations", "anchors": ["test_rank_select_common.hpp:5-123", "test_bp_vector.cpp:11-49", "test_bp_vector_rmq.cpp:12-60", "test_cartesian_tree.cpp:14-60", "test_topk_vector.cpp:17-67", "test_gamma_vector.cpp:25-28"]}
{"id": "C106", "title": "The generators of the tests produce balanced sequences", "statement": "random_binary_tree(size), for an even size of at least 2, random_bp(n) and bp_path(size) meet none of their assertions, terminate, and produce balanced sequences: of exactly size bits within one pair of parentheses; of between n and 2n bits within one pair of parentheses; of size/2 nested pairs.", "quantifier": "for all sizes (random_bp: below 2^31) and all sequences of values of rand()", "why_tests_cant": "the tests run the generators with one seed; were one to give an unbalanced sequence the drivers would pop an empty stack", "anchors": ["test_bp_vector_common.hpp:6-65"]}
{"id": "C107", "title": "The library passes its test drivers for every input", "statement": "For every input and every sequence of values of rand(), the drivers of the tests run to their end on the objects of the library: bit_vector built by push_back, set, append_bits, set_bits (nonzero integers) and reverse, its enumerators, rs_bit_vector with any hints, darray0 and darray1, elias_fano, gamma_vector, gamma_bit_vector, elias_fano_compressed_list, bp_vector on balanced sequences and on all outputs of the generators, cartesian_tree with any strict weak order (any number of values but one), topk_vector. The test of the unary enumerator runs to its end exactly if the vector ends in a one; otherwise it reads v[v.size()].", "quantifier": "for all inputs in the domains of the structures and all sequences of values of rand()", "why_tests_cant": "the tests run each driver on a handful of inputs with one seed", "anchors": ["test_bit_vector.cpp:11-203", "test_rs_bit_vector.cpp:27-33", "test_elias_fano.cpp:22-31", "test_darray.cpp:11-33", "test_bp_vector.cpp:51-92", "test_bp_vector_rmq.cpp:62-103", "test_cartesian_tree.cpp:62-121", "test_topk_vector.cpp:69-110", "test_gamma_vector.cpp:23-61", "test_gamma_bit_vector.cpp:32-61", "test_elias_fano_compressed_list.cpp:23-28"]}
{"id": "C108", "title": "Range minima and top-k queries without assertions", "statement": "In a build with NDEBUG: every answer that excess, excess_rmq, cartesian_tree::rmq, topk, get_topk_enumerator and next of the enumerator give in a build with assertions is given without them too, whatever the objects hold. So on balanced sequences and on ranges inside the sequence all answers are right, for topk_vector over every container of the library. excess beyond the end goes on as if closing parentheses followed, as far as the reads stay inside the arrays, and is undefined from there on. rmq and topk of a range of more than one position that ends beyond the values (below 2^63) always read outside the tables; rmq(a, a) is a for every a. Reversed ranges, however, may get answers, inside or outside the sequence.", "quantifier": "for all objects (same answers); for all balanced sequences below 2^31 bits, all values below 2^30-1 in number, all ranges and positions of the machine", "why_tests_cant": "the tests run with assertions and only ask ranges inside the sequence; undefined behaviour on wrong ranges can look right in a test", "anchors": ["bp_vector.cpp:359-625", "cartesian_tree.hpp:106-137", "topk_vector.hpp:44-165", "rs_bit_vector.hpp:113-152"]}
{"id": "C109", "title": "The bit-vector builder with assertions compiled out", "statement": "In a build with NDEBUG, any history of builder calls with fields of at most 64 bits leaves exactly the buffer that a short specification gives: append_bits and push_back or their bits onto whatever the unused part of the last word holds, so the superfluous high bits of a field reappear as content of later appends; set_bits ors the superfluous bits onto the rest of the last word it touches; append copies the padding of its argument as well; reverse alone clears the padding. The history is undefined behaviour exactly if a set or set_bits writes outside the buffer (not: outside the size). Everything the builder with assertions computes is computed unchanged, and histories that keep the preconditions leave the specified bits followed by zeros. rs_bit_vector built over dirty padding counts it in num_ones, select and rank(size), but not in rank before the end.", "quantifier": "for all histories of calls with any arguments, fields of at most 64 bits and no reallocating reserve within a word", "why_tests_cant": "the tests run with assertions and never violate a precondition; what a violated one does later to other bits depends on the whole history", "anchors": ["bit_vector.hpp:27-185", "bit_vector.hpp:222-225", "rs_bit_vector.cpp:5-71", "rs_bit_vector.hpp:43-110"]}
{"id": "C110", "title": "Elias-Fano construction with assertions compiled out", "statement": "In a build with NDEBUG, elias_fano_builder accepts any values in any order and number. Pushing is undefined behaviour exactly if the mark (high part of the value plus number of values before it) of some value falls outside the words of the high part. Otherwise num_ones is the number of distinct marks inside the high part, and select(k) is composed of the k-th smallest mark and the low bits of the k-th value pushed. The sequence returned is the one pushed exactly if the high parts do not decrease and their marks stay inside the high part; the order of values within a bucket and the universe do not matter. The constructor from a bitmap stores all ones of the words, stray ones behind the end included. Everything the constructors with assertions build is built unchanged.", "quantifier": "for all universes, capacities up to 2^62, value sequences and builder histories", "why_tests_cant": "the tests run with assertions and push sorted values within the universe; the outcome of other uses depends on collisions of marks", "anchors": ["elias_fano.hpp:15-44", "elias_fano.hpp:52-78", "elias_fano.hpp:132-136", "elias_fano.hpp:255-264", "bit_vector.hpp:332-345"]}
{"id": "C111", "title": "bp_vector of 2^31 bits or more with assertions compiled out", "statement": "In a build with NDEBUG the constructor of bp_vector builds whatever the constructor with assertions builds, and also balanced sequences of 2^31 to 2^32 - 1 bits, which the latter rejects. In such an object excess is right everywhere. find_close is right if the closing parenthesis lies at most one superblock (8192 bits) after that of the block next to the opening one, and reads outside the arrays otherwise; find_open and enclose likewise to the left. excess_rmq(a, b) answers with the leftmost minimum among the positions up to the end of the superblock after that of a and those from the start of the superblock of b on, and ignores the positions in between.", "quantifier": "for all builder histories giving balanced sequences in this range with excess below 2^31 - 64, all positions and ranges, and every outcome of over-wide shifts", "why_tests_cant": "needs sequences of 2^31 bits, and the tests run with assertions; depth and distance decide which queries fail", "anchors": ["bp_vector.cpp:628-708", "bp_vector.cpp:148-357", "bp_vector.cpp:365-626", "bp_vector.hpp:19-26", "bp_vector.hpp:66-67"]}
{"id": "C112", "title": "Constructors of the integer sequences with assertions compiled out", "statement": "In a build with NDEBUG the constructors of elias_fano_list, elias_fano_compressed_list, gamma_vector and gamma_bit_vector build whatever those with assertions build. For the value 2^64 - 1 the constructors of elias_fano_compressed_list and gamma_vector are undefined behaviour, wherever it stands; without it the values come back. For the value 2^64 - 2 that of gamma_bit_vector is undefined behaviour; with 2^64 - 1 instead it finishes with the right number of values, but other values come back changed. elias_fano_list adds up its values modulo 2^64: the constructor is undefined behaviour exactly if the mark of a prefix sum falls outside of the high part, and the values come back exactly if the high parts of the prefix sums do not decrease and stay inside, which may happen although the sum does not fit.", "quantifier": "for all sequences of 64-bit values, of up to 2^62 values for elias_fano_list and below 2^57 for the others", "why_tests_cant": "the tests run with assertions and with small values; where the sum wraps, the outcome depends on the position of every prefix sum", "anchors": ["elias_fano_list.hpp:14-41", "elias_fano_compressed_list.hpp:14-48", "gamma_vector.hpp:18-39", "gamma_bit_vector.hpp:23-45", "darray64.hpp:15-46", "bit_vector.hpp:82-98", "broadword.hpp:131-162"]}
{"id": "C113", "title": "cartesian_tree of 2^30 - 1 values or more with assertions compiled out", "statement": "In a build with NDEBUG the constructor of cartesian_tree builds whatever that with assertions builds. Over 2^30 - 1 to 2^31 - 66 values the constructor with assertions aborts and that without them succeeds. rmq(a, b) then always returns an index of the range. It is the index that a smaller tree would return if that is b, or if it is among the last 4097 values of the range, and generally if its closing parenthesis lies in a superblock that excess_rmq looks at. Otherwise it may be wrong: with a single 0 in the middle of ones, the minimum of a range of 2^21 + 1 values around it is said to be a 1.", "quantifier": "for all comparators and all sequences of 2^30 - 1 to 2^31 - 66 values, for all ranges inside the sequence", "why_tests_cant": "the tests run with assertions and over sequences that are far smaller", "anchors": ["cartesian_tree.hpp:40-89", "cartesian_tree.hpp:106-137", "cartesian_tree.hpp:163-176", "bp_vector.cpp:508-625", "bp_vector.cpp:628-708", "bit_vector.hpp:148-165"]}
{"id": "C114", "title": "Sequences and benchmark of perftest_elias_fano", "statement": "For at most 64 bits and at least one value, m calls of monotone_generator::next return m values in nondecreasing order, all below 2^bits, whatever random numbers are drawn. done() holds after the m calls and not before, and one more call fails its assertion. Every nondecreasing sequence of values below 2^bits can be produced. For less than 64 bits and up to 2^62 values, ef_enumeration_benchmark meets no failing assertion and no undefined behaviour, and leaves in vfoo the exclusive or of the values generated, so the enumerator reads back what was pushed. With m = 0 the assertion mgen.done() fails, and with 64 bits or more the universe 1 << bits is undefined.", "quantifier": "for all sequences of random numbers, all numbers of values and all numbers of bits", "why_tests_cant": "the benchmark runs one seed and discards the value it computes, and the set of sequences a random generator can produce cannot be observed by running it", "anchors": ["perftest/perftest_elias_fano.cpp:16-74", "perftest/perftest_elias_fano.cpp:76-102"]}
{"id": "C115", "title": "Runs of the perftests of bp_vector and cartesian_tree", "statement": "random_binary_tree produces the preorder code of a binary tree of size - 1 nodes after one bit for the root, and any such tree can be produced. For even sizes from 4 to below 2^31, time_visit on the bp_vector made of it ends, never leaves the sequence, calls find_close once for each random bit set, and its positions are the nodes reached by walking down the tree, to the right for a bit set and to the left otherwise. For size 2 it never ends. The queries of time_avg_rmq are always of two positions in order and in range, any such pairs can be drawn, and all answers are right, for excess_rmq and for rmq. On an empty structure it divides by zero.", "quantifier": "for all sequences of random numbers, all even sizes below 2^31 (below 2^30 - 1 for cartesian_tree) and all sample sizes", "why_tests_cant": "the perftests check no answer and run one seed; that the visit ends depends on find_close being right at every node reached", "anchors": ["perftest/perftest_bp_vector.cpp:40-80", "perftest/perftest_bp_vector_rmq.cpp:13-44", "perftest/perftest_cartesian_tree.cpp:13-61", "test_bp_vector_common.hpp:6-35"]}
{"id": "C116", "title": "User-defined classes under freeze and map", "statement": "Let the map(Visitor&) member of any class pass PODs, mappable_vectors and members of class type to the visitor, branching only on members it has passed before. Then freezing an object and mapping the image, followed by anything, onto an object in any state restores every member passed and leaves the others as they were; the object frozen may itself be mapped from another image; freeze and map return the size of the image, 8 more than size_of. Without the condition this fails: a class that passes an optional vector before the flag saying so is not restored by mapping onto an object whose flag differs. The tests basic_map and complex_struct_map of test_mapper.cpp pass for all contents, the latter exactly for the size 16 + 4 * m_b.size().", "quantifier": "for all map members, all objects, all earlier states of the target, all flags and all bytes after the image", "why_tests_cant": "the set of classes users can write is unbounded and the result depends on the earlier state of the target object; the tests map onto a fresh object of two fixed classes", "anchors": ["mapper.hpp:63-88", "mapper.hpp:111-145", "mapper.hpp:168-207", "mapper.hpp:234-269", "test_mapper.cpp:8-77"]}
{"id": "C117", "title": "Freezing and mapping where long or size_t has 32 bits", "statement": "freeze hands the number of bytes of each vector to ostream::write as long. Where long has 32 bits (64-bit Windows) an object with vectors under 2 GB is frozen as elsewhere. write gets a negative count exactly if the size of some vector modulo 4 GB is 2 GB or more. Otherwise freeze returns the size of the complete image, but of each vector only its size modulo 4 GB is written, and if a vector of 4 GB or more is among them then mapping the file never gives the object back. Where size_t has 4 bytes every class round-trips with matching counts, but its images are 4 bytes shorter for each size_t field than those written with 8 bytes; mapping such an image where size_t has 8 bytes never gives the object back, and in the other direction map returns less than the size of the image even when it does.", "quantifier": "for all thirteen mappable classes, all objects that fit, all names and flags; images of less than 2^60 bytes for the claims about mapping a wrong image", "why_tests_cant": "needs vectors of gigabytes, other platforms, and the failure is silent", "anchors": ["mapper.hpp:53-88", "mapper.hpp:111-145", "mapper.hpp:234-269", "bit_vector.hpp:228-232", "darray.hpp:58-65"]}
{"id": "C118", "title": "Images depend on nothing but what is stored", "statement": "Two objects of a class have the same image, byte for byte, exactly if they store the same: a bit_vector the same bits, whatever calls on a builder or ranges they came from; rs_bit_vector and bp_vector the same bits with the same hints; elias_fano the same universe and values, whether pushed or taken from a bitmap; the integer lists, nibble_vector and topk_vector the same values; a cartesian_tree the same leftmost minima. The one exception is the empty bp_vector, whose image contains 8 bytes of memory that was never written (m_internal_nodes).", "quantifier": "for all pairs of builder histories, ranges and lists within the size limits of each class, all names and flags", "why_tests_cant": "quantifies over pairs of construction paths; the tests compare answers, not representations, and memory that was never written often holds zero", "anchors": ["bit_vector.hpp:22-225", "rs_bit_vector.hpp:14-34", "bp_vector.hpp:15-36", "bp_vector.cpp:628-708", "elias_fano.hpp:15-90", "mapper.hpp:63-88"]}
{"id": "C119", "title": "Bit vectors and integer sequences where size_t has 32 bits", "statement": "Where size_t has 32 bits, a bit_vector of n bits reports and gives access to the first n mod 2^32 bits only, while rank at its end counts the ones of all n. elias_fano_list silently keeps every 64-bit value modulo 2^32 as long as these add up to less than 2^32 - 1, and fails an assertion otherwise; its values come back exactly if all are below 2^32. elias_fano_compressed_list silently keeps (x + 1) mod 2^32 - 1, and fails an assertion if some x + 1 is a multiple of 2^32. elias_fano (with any 64-bit universe), gamma_vector and gamma_bit_vector with fewer than 2^26 values are the same objects as with a size_t of 64 bits.", "quantifier": "for all lists of bits; for all lists of fewer than 2^26 64-bit values, all universes, all builder histories", "why_tests_cant": "the tests run only on the platform they are compiled for, their values are small and their vectors short", "anchors": ["bit_vector.hpp:196-225,525", "elias_fano_list.hpp:14-50", "elias_fano_compressed_list.hpp:14-48", "elias_fano.hpp:15-49,255-271", "gamma_vector.hpp:18-39", "gamma_bit_vector.hpp:23-45", "README.md:30-33"]}
{"id": "C120", "title": "How far the linear searches walk", "statement": "predecessor0/1 and successor0/1 of a bit vector read exactly the words between argument and result. The darray constructor calls lsb once for every word and once for every position stored. Making an elias_fano from a bitmap reads, in all its calls of successor1 together, at most one word for every word of the bitmap and one for every one. elias_fano::rank and operator[] read at most as many low parts as there are values in the bucket of the argument, hence at most max(1, n/m) if no value is stored twice; for k copies of one value rank reads k. delta and select_range read at most gap/64 + 2 words, the gap counted in buckets.", "quantifier": "for all words and positions; for all bitmaps of fewer than 2^62 bits; for all storable sequences, universes, capacities and arguments", "why_tests_cant": "tests observe results, not the number of steps; time depends on the distribution of the values", "anchors": ["bit_vector.hpp:287-345", "darray.hpp:17-55", "elias_fano.hpp:52-73,109-158,173-199"]}
{"id": "C121", "title": "Bytes taken by an object", "statement": "The number of bytes mapper::size_of reports depends on what was stored as follows. bit_vector: 16 + 8*ceil(n/64). rs_bit_vector: 56, the words, 16 per block of 512 bits, 8 per hint (one per 1024 ones or zeros). bp_vector over n balanced parentheses: at most 339/2048 of a byte for each (8/2048 more for each kind of hints) and 156. cartesian_tree: at most 2.72 bits for each value and 157 bytes; topk_vector: the values besides. darray: 32, 8 per 1024 and 2 per 32 positions, and at most one bit per bit. elias_fano: floor(log2(n/m)) + 7 bits for each value (12 with the rank index) and a constant; elias_fano_list, elias_fano_compressed_list, gamma_vector, gamma_bit_vector and nibble_vector: the code lengths, the index, and a constant.", "quantifier": "for all contents within the stated sizes (2^31 parentheses, 2^30 values, 2^53 or more elsewhere), all choices of the hints and of the rank index", "why_tests_cant": "a test measures the size of the inputs it builds; worst cases over all distributions of bits are out of reach", "anchors": ["mapper.hpp:168-207,263-269", "bit_vector.hpp:228-232", "rs_bit_vector.hpp:27-34", "bp_vector.hpp:29-36", "elias_fano.hpp:81-90", "cartesian_tree.hpp:150-154"]}
{"id": "C122", "title": "vbyte, nibble_vector and topk where size_t has 32 bits", "statement": "Where size_t has 32 bits, append_vbyte writes the same one to five bytes as where it has 64, and decode_vbyte reads them back. On any bytes decode_vbyte takes as many bytes as where size_t has 64 bits and yields the number modulo 2^32, so a number written elsewhere is read correctly exactly if it is below 2^32, and otherwise wrongly without any sign of an error. A nibble_vector of n nibbles reports n mod 2^32 and gives access to that many. topk_vector::topk gives the same answers for all arguments although b - a + 1 is cut to 32 bits.", "quantifier": "for all 32-bit and 64-bit numbers, all byte vectors of fewer than 2^32 bytes, all nibble sequences, all top-k vectors of fewer than 2^30 - 1 values and all 64-bit arguments", "why_tests_cant": "the tests are built for one word size and exchange no data between builds", "anchors": ["vbyte.hpp:7-39", "nibble_vector.hpp:17-65", "topk_vector.hpp:149-165"]}
{"id": "C123", "title": "auto_file closes its file exactly once", "statement": "Whatever a program does with auto_file objects in nested blocks, with whatever exceptions thrown and caught and whatever failures of fopen, every file is used only while open, is opened once, and is closed exactly once before the program ends. If fopen fails the block is not entered, std::invalid_argument (or std::bad_alloc for its message) is thrown and nothing is left open. A pointer taken with get(), e.g. by lines(), that outlives the object refers to a closed file.", "quantifier": "for all programs of nested blocks, sequences, exceptions and handlers, and all outcomes of fopen", "why_tests_cant": "tests exercise no failing fopen and cannot enumerate paths of exceptions", "anchors": ["util.hpp:93-130"]}
{"id": "C124", "title": "Enumerators of vectors that are swapped", "statement": "Under any interleaving of bit_vector::swap, of emptying vectors by swapping with a temporary, and of reads, a bit_vector::enumerator follows its vector object: next and take answer from the at most 64 bits it holds if these suffice and otherwise entirely from what the object holds by then, never from a mixture, while skip_zeros first counts the zeros held and goes on in the new content. A unary_enumerator follows the words instead: its answers are those for the vector it was made on, whatever is swapped, as long as nobody frees these words; once they are freed it reads freed memory as soon as it leaves its word.", "quantifier": "for all numbers of vectors with all contents, all positions and all histories of swaps, emptyings and reads (without the stale reads of C07 and C08)", "why_tests_cant": "no test swaps a vector under a live enumerator, and when a refill happens depends on the whole history of reads", "anchors": ["bit_vector.hpp:234-237", "bit_vector.hpp:352-428", "bit_vector.hpp:430-522", "mappable_vector.hpp:55-66"]}
{"id": "C125", "title": "The two ways to read lines agree", "statement": "For every text without NUL bytes, repeated fast_getline calls with trim_newline and iteration over mmap_lines yield the same lines exactly if no line has two carriage returns before its end and the text is empty, ends with a newline, or has a last line that ends with a carriage return and whose length is 1 modulo 65535. In particular they agree on every text with Unix or DOS line ends and a final newline. Iteration over lines(f) never agrees with iteration over mmap_lines of the same file.", "quantifier": "for all texts without NUL bytes, of any length", "why_tests_cant": "tests compare neither reader with the other, and the exceptional lines depend on the size of the internal buffer", "anchors": ["util.hpp:15-49", "util.hpp:62-95", "util.hpp:152-232"]}
{"id": "C126", "title": "Forward enumerators of gamma vectors that are swapped", "statement": "Given any gamma_vectors (or gamma_bit_vectors), a forward_enumerator on one of them at any valid index, and any interleaving of swaps of two vectors with calls of next: as long as the index is within the vector held now and the place the digits start at lies within its digit sequence (or the buffer suffices), next is defined and returns a value whose number of digits is that of the old content at that index, while its digits are those still buffered or, if the buffer is too short, those of the vector held at the time of the call, at the old place, with zeros behind its end. So every answer has the magnitude of the old value but may be a value of neither vector. If the vector held now is shorter than the index, the assertion in next fails.", "quantifier": "for all contents of all vectors, all indices and all interleavings of swap and next", "why_tests_cant": "tests never swap a container under an enumerator, and the answer depends on which of two pointers and which buffer is consulted", "anchors": ["gamma_vector.hpp:53-57", "gamma_vector.hpp:81-118", "gamma_bit_vector.hpp:59-63", "gamma_bit_vector.hpp:90-133", "bit_vector.hpp:355-428"]}
{"id": "C127", "title": "select_enumerator of an elias_fano that is swapped", "statement": "Given any elias_fano objects, a select_enumerator on one of them at any valid index, and any interleaving of swaps of two objects with at most as many calls of next as values were left: all calls are defined exactly if at each one the object now in place has a value at the current index with the same quotient by its 2^l as the old value has by the old 2^l (this is the assertion in next), and the low bits are still buffered, or there are none, or their old place lies inside the low bits of the content now in place. Each answer is then the quotient of the old value with the low bits buffered or, when none are buffered, those at the old place in the content now in place. So answers keep the quotient of the old values, but may be values of neither object and may decrease.", "quantifier": "for all contents of all objects, all indices and all interleavings of swap and next", "why_tests_cant": "tests never swap a container under an enumerator, and the answer depends on members copied at construction, on a pointer to words and on a pointer to the object", "anchors": ["elias_fano.hpp:92-99", "elias_fano.hpp:201-252", "bit_vector.hpp:430-522"]}
{"id": "C128", "title": "topk enumerator of a topk_vector that is swapped", "statement": "Given any topk_vectors, an enumerator on one of them over a range inside all of them, and any interleaving of swaps of two objects with calls of next: all calls are defined. Each call delivers the pending entry that is ranked first (larger value, then smaller index), and replaces it by the first ranked entries of the positions left and right of it in the content now in place; entries already pending keep the value read before. Whatever is swapped, no index is delivered twice, all indices lie in the range, next answers exactly as often as the range has positions and returns false from then on, and each value stood at its index in some content the object held. Without swaps the answers are the ranking of the range. With swaps the values delivered may increase.", "quantifier": "for all contents of all objects, all value orders, all correct heap functions, all ranges and all interleavings of swap and next", "why_tests_cant": "tests never swap a container under an enumerator, and the answers mix entries queued from one content with lookups in another", "anchors": ["topk_vector.hpp:44-133", "topk_vector.hpp:137-147", "topk_vector.hpp:176-180"]}
{"id": "C129", "title": "Enumerators of Elias-Fano lists that are swapped", "statement": "Given any elias_fano_list or elias_fano_compressed_list objects, a forward_enumerator on one of them at any index, and any interleaving of swaps of two objects with calls of next: a call is defined exactly if the content now in place has a value at the next index, and this value is the answer. So both containers give the same answers, and every answer is a value the object held at that index; parts of different values are never combined.", "quantifier": "for all contents of all objects, all start indices and all interleavings of swap and next", "why_tests_cant": "tests never swap a container under an enumerator", "anchors": ["forward_enumerator.hpp:5-23", "elias_fano_list.hpp:38-55", "elias_fano_compressed_list.hpp:43-59"]}
{"id": "C130", "title": "Iterators of mappable_vector kept by the caller", "statement": "Iterators [begin(), end()) taken from a mappable_vector after any program (construction, steal, swap, clear, assign, map and destruction of any number of vectors) show the same elements after any further such program exactly if the vector owned no buffer (mapped or empty), or some vector still holds the elements; swap moves them to the other vector, and they are given up when their holder is cleared, assigned to, stolen into, mapped or destroyed. The vector found by following the swaps then has just these contents. Otherwise the buffer has been freed.", "quantifier": "for all programs before and after the iterators are taken, all vectors and all contents", "why_tests_cant": "a dangling pointer usually still shows the old elements", "anchors": ["mappable_vector.hpp:30-31", "mappable_vector.hpp:55-99", "mapper.hpp:126-145"]}
