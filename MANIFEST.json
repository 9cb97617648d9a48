{
 "claims": [
  {
   "property": "C01",
   "status": "proved",
   "theorems": [
    "Succinct.C01_builder_history",
    "Succinct.C01_builder_eq_range",
    "Succinct.C01_reserve_false"
   ],
   "note": "all histories of the listed calls, also with reserve() while the size is a multiple of 64; C01_reserve_false: a reallocating reserve() in mid-word leaves a dangling pointer (undefined behaviour)"
  },
  {
   "property": "C02",
   "status": "proved",
   "theorems": [
    "Succinct.C02_range"
   ],
   "note": ""
  },
  {
   "property": "C03",
   "status": "proved",
   "theorems": [
    "Succinct.C03_get_bits",
    "Succinct.C03_get_bits_pre"
   ],
   "note": "for every value of the formally undefined shift 1<<64"
  },
  {
   "property": "C04",
   "status": "proved",
   "theorems": [
    "Succinct.C04_get_word",
    "Succinct.C04_get_word56"
   ],
   "note": "byte-level little-endian load for get_word56"
  },
  {
   "property": "C05",
   "status": "proved",
   "theorems": [
    "Succinct.C05_predecessor"
   ],
   "note": ""
  },
  {
   "property": "C06",
   "status": "proved",
   "theorems": [
    "Succinct.C06_successor",
    "Succinct.C06_successor_sound",
    "Succinct.C06_successor_absent"
   ],
   "note": ""
  },
  {
   "property": "C07",
   "status": "partial",
   "theorems": [
    "Succinct.C07_enumerator_partial",
    "Succinct.C07_stale_partial",
    "Succinct.C07_enumerator_false"
   ],
   "note": "false of the code for skip_zeros directly after a take(64) that returned something else than 0 (witness proved, and exactly what the code answers there and when that is right); proved for all other histories"
  },
  {
   "property": "C08",
   "status": "partial",
   "theorems": [
    "Succinct.C08_unary_partial",
    "Succinct.C08_unary_exact_partial",
    "Succinct.C08_unary_false",
    "Succinct.C08_unary_end_oob"
   ],
   "note": "false of the code for skip0 directly after next (witness proved); proved for all other histories; with position() the answers are right exactly for those"
  },
  {
   "property": "C09",
   "status": "proved",
   "theorems": [
    "Succinct.C09_popcount"
   ],
   "note": "all 2^64 words; default and POPCNT paths"
  },
  {
   "property": "C10",
   "status": "proved",
   "theorems": [
    "Succinct.C10_select_in_word",
    "Succinct.C10_select_in_word_pre",
    "Succinct.C10_select_in_word_config"
   ],
   "note": "both code paths; table checked entry by entry in the kernel"
  },
  {
   "property": "C100",
   "status": "proved",
   "theorems": [
    "Succinct.C100_decode",
    "Succinct.C100_canonical"
   ],
   "note": ""
  },
  {
   "property": "C101",
   "status": "proved",
   "theorems": [
    "Succinct.C101_elias_fano",
    "Succinct.C101_gamma_vector",
    "Succinct.C101_gamma_bit_vector"
   ],
   "note": "The select of the constructors and the one in the assertion of elias_fano.hpp:231 are not counted."
  },
  {
   "property": "C102",
   "status": "proved",
   "theorems": [
    "Succinct.C102_same_answers",
    "Succinct.C102_bit_vector",
    "Succinct.C102_rs_bit_vector",
    "Succinct.C102_darray",
    "Succinct.C102_darray64",
    "Succinct.C102_elias_fano",
    "Succinct.C102_pred_succ",
    "Succinct.C102_select_false"
   ],
   "note": "C102_select_false: from 2^56 on rs_bit_vector::select answers wrong positions. get_bits with a length above 64 is covered by C102_same_answers only. Construction is the checked code; its assertions have no side effects."
  },
  {
   "property": "C103",
   "status": "proved",
   "theorems": [
    "Succinct.C103_bit_vector",
    "Succinct.C103_enumerator",
    "Succinct.C103_rs_bit_vector",
    "Succinct.C103_rs_bit_vector_empty",
    "Succinct.C103_darray",
    "Succinct.C103_darray64",
    "Succinct.C103_elias_fano",
    "Succinct.C103_lists",
    "Succinct.C103_bp_vector",
    "Succinct.C103_cartesian_tree",
    "Succinct.C103_enumerators_unchecked",
    "Succinct.C103_unary_enumerator",
    "Succinct.C103_values"
   ],
   "note": "the exceptions named in the statement are proved as such (C103_rs_bit_vector_empty, C103_enumerators_unchecked and the examples); for bp_vector and cartesian_tree the conditions for undefined arithmetic are not characterised; a vector is assumed to have as many elements as its size says"
  },
  {
   "property": "C104",
   "status": "proved",
   "theorems": [
    "Succinct.C104_same_answers",
    "Succinct.C104_list",
    "Succinct.C104_compressed_list",
    "Succinct.C104_gamma_vector",
    "Succinct.C104_gamma_bit_vector",
    "Succinct.C104_select_enumerator",
    "Succinct.C104_nibble_vector",
    "Succinct.C104_nibble_vector_fits"
   ],
   "note": "sequences within the sizes of C76; constructors of the lists and gamma vectors in their domain"
  },
  {
   "property": "C105",
   "status": "proved",
   "theorems": [
    "Succinct.C105_equal_bits",
    "Succinct.C105_rank_select",
    "Succinct.C105_rank_select_blind",
    "Succinct.C105_delta",
    "Succinct.C105_select_enumeration",
    "Succinct.C105_parentheses",
    "Succinct.C105_parentheses_blind",
    "Succinct.C105_rmq",
    "Succinct.C105_cartesian",
    "Succinct.C105_cartesian_one",
    "Succinct.C105_topk",
    "Succinct.C105_container"
   ],
   "note": "std::sort, std::min_element by contract; test_rmq of bp_vector for a right enumerator and excess, vectors below 2^31 bits"
  },
  {
   "property": "C106",
   "status": "proved",
   "theorems": [
    "Succinct.C106_binary_tree",
    "Succinct.C106_random_bp",
    "Succinct.C106_bp_path"
   ],
   "note": "random_bp below 2^31 (its excess is an int)"
  },
  {
   "property": "C107",
   "status": "proved",
   "theorems": [
    "Succinct.C107_bit_vector",
    "Succinct.C107_bits",
    "Succinct.C107_reverse",
    "Succinct.C107_bit_vector_enumerator",
    "Succinct.C107_unary_enumerator",
    "Succinct.C107_rs_bit_vector",
    "Succinct.C107_darray",
    "Succinct.C107_elias_fano",
    "Succinct.C107_gamma_vector",
    "Succinct.C107_gamma_bit_vector",
    "Succinct.C107_compressed_list",
    "Succinct.C107_bp_vector",
    "Succinct.C107_bp_vector_generated",
    "Succinct.C107_cartesian_tree",
    "Succinct.C107_topk_vector",
    "Succinct.C107_sort_exists"
   ],
   "note": "test_mapper.cpp and the random_bit_vector generator are not modelled"
  },
  {
   "property": "C108",
   "status": "proved",
   "theorems": [
    "Succinct.C108_same_answers",
    "Succinct.C108_bp_vector",
    "Succinct.C108_rmq",
    "Succinct.C108_topk",
    "Succinct.C108_topk_containers",
    "Succinct.C108_reversed_false"
   ],
   "note": "C108_reversed_false are the witnesses for reversed ranges, also for an end of 2^64-1; std::push_heap and std::pop_heap by contract"
  },
  {
   "property": "C109",
   "status": "proved",
   "theorems": [
    "Succinct.C109_builder",
    "Succinct.C109_same_answers",
    "Succinct.C109_contract",
    "Succinct.C109_rs_bit_vector",
    "Succinct.C109_stray_false",
    "Succinct.C109_long_false",
    "Succinct.C109_reserve_false"
   ],
   "note": "sizes taken not to overflow 64 bits; C109_stray_false, C109_long_false and C109_reserve_false are witnesses of what goes wrong"
  },
  {
   "property": "C11",
   "status": "proved",
   "theorems": [
    "Succinct.C11_msb",
    "Succinct.C11_lsb"
   ],
   "note": "intrinsics by documented meaning; portable path literal"
  },
  {
   "property": "C110",
   "status": "proved",
   "theorems": [
    "Succinct.C110_push",
    "Succinct.C110_select",
    "Succinct.C110_order",
    "Succinct.C110_same_answers",
    "Succinct.C110_bitmap",
    "Succinct.C110_unsorted_false",
    "Succinct.C110_bitmap_false"
   ],
   "note": "capacity at most 2^62 and, for capacity 0, universe below 2^64 - 2 (as for C20-C25); C110_unsorted_false and C110_bitmap_false are witnesses of what goes wrong"
  },
  {
   "property": "C111",
   "status": "proved",
   "theorems": [
    "Succinct.C111_same_object",
    "Succinct.C111_large",
    "Succinct.C111_large_false"
   ],
   "note": "C111_large_false is a witness of what goes wrong: two trees of 2^30 bits each"
  },
  {
   "property": "C112",
   "status": "proved",
   "theorems": [
    "Succinct.C112_list",
    "Succinct.C112_same_answers",
    "Succinct.C112_largest",
    "Succinct.C112_gamma_bit_vector",
    "Succinct.C112_gamma_bit_vector_false",
    "Succinct.C112_list_false"
   ],
   "note": "the two _false theorems are the witnesses of values that come back changed"
  },
  {
   "property": "C113",
   "status": "proved",
   "theorems": [
    "Succinct.C113_same_object",
    "Succinct.C113_large",
    "Succinct.C113_short",
    "Succinct.C113_large_false"
   ],
   "note": "C113_large is for any comparator; C113_large_false is the witness of a wrong answer"
  },
  {
   "property": "C114",
   "status": "proved",
   "theorems": [
    "Succinct.C114_generator",
    "Succinct.C114_every_sequence",
    "Succinct.C114_benchmark",
    "Succinct.C114_benchmark_fails",
    "Succinct.C114_wide"
   ],
   "note": "C114_wide: the generator itself is undefined for more than 64 bits once a value goes to the right"
  },
  {
   "property": "C115",
   "status": "proved",
   "theorems": [
    "Succinct.C115_trees",
    "Succinct.C115_visit",
    "Succinct.C115_visit_leaf",
    "Succinct.C115_pairs",
    "Succinct.C115_every_pair",
    "Succinct.C115_no_pair",
    "Succinct.C115_excess_rmq",
    "Succinct.C115_cartesian"
   ],
   "note": "rand() may return any natural number; the set of producible sequences is stated for such a rand()"
  },
  {
   "property": "C116",
   "status": "proved",
   "theorems": [
    "Succinct.C116_restores",
    "Succinct.C116_flag_last_false",
    "Succinct.C116_complex_struct",
    "Succinct.C116_test_complex",
    "Succinct.C116_test_basic"
   ],
   "note": "C116_flag_last_false shows that the condition on the branches is needed; the tests are modelled with any contents in place of the constants"
  },
  {
   "property": "C117",
   "status": "proved",
   "theorems": [
    "Succinct.C117_long",
    "Succinct.C117_long_classes",
    "Succinct.C117_own",
    "Succinct.C117_eight",
    "Succinct.C117_foreign",
    "Succinct.C117_empty"
   ],
   "note": "C117_empty is the witness that the 8-to-4-byte direction cannot be excluded: the image of an empty bit_vector is restored with count 20 of 24. The conversion long(n_bytes) is modelled as keeping the low 32 bits"
  },
  {
   "property": "C118",
   "status": "proved",
   "theorems": [
    "Succinct.C118_bit_vector",
    "Succinct.C118_rs_bit_vector",
    "Succinct.C118_bp_vector",
    "Succinct.C118_empty_bp_false",
    "Succinct.C118_elias_fano",
    "Succinct.C118_lists",
    "Succinct.C118_topk_vector",
    "Succinct.C118_cartesian_tree"
   ],
   "note": "C118_empty_bp_false: two images of the same empty bp_vector that differ. elias_fano with a builder made for exactly the number of values pushed, at least one, and the same with_rank_index on both sides; darray and darray64 do not determine the bits they index and are left out"
  },
  {
   "property": "C119",
   "status": "proved",
   "theorems": [
    "Succinct.C119_bit_vector",
    "Succinct.C119_rank_end_false",
    "Succinct.C119_elias_fano",
    "Succinct.C119_list",
    "Succinct.C119_list_values",
    "Succinct.C119_compressed_list",
    "Succinct.C119_gamma"
   ],
   "note": "C119_rank_end_false: what C14 says fails at the end of a vector of 2^32 bits or more. Counters of values and the positions darray computes are taken from the 64-bit model; they are below 2^32 within the bounds of the theorems"
  },
  {
   "property": "C12",
   "status": "proved",
   "theorems": [
    "Succinct.C12_reverse_bits",
    "Succinct.C12_reverse_bytes"
   ],
   "note": "both code paths"
  },
  {
   "property": "C120",
   "status": "proved",
   "theorems": [
    "Succinct.C120_predecessor",
    "Succinct.C120_successor",
    "Succinct.C120_darray",
    "Succinct.C120_bitmap",
    "Succinct.C120_bucket",
    "Succinct.C120_distinct",
    "Succinct.C120_rank_linear",
    "Succinct.C120_gap"
   ],
   "note": "Steps are counted in copies of the functions; that the copies return what the functions return is part of the theorems. C120_rank_linear shows that the bound by the bucket cannot be improved when values repeat"
  },
  {
   "property": "C121",
   "status": "proved",
   "theorems": [
    "Succinct.C121_bit_vector",
    "Succinct.C121_rs_bit_vector",
    "Succinct.C121_bp_vector",
    "Succinct.C121_cartesian_tree",
    "Succinct.C121_topk_vector",
    "Succinct.C121_darray",
    "Succinct.C121_elias_fano",
    "Succinct.C121_elias_fano_list",
    "Succinct.C121_elias_fano_compressed_list",
    "Succinct.C121_gamma_vector",
    "Succinct.C121_gamma_bit_vector",
    "Succinct.C121_nibble_vector"
   ],
   "note": "Joins the array lengths of C53-C57 with the visitor of C41; the image written by freeze has 8 bytes more"
  },
  {
   "property": "C122",
   "status": "proved",
   "theorems": [
    "Succinct.C122_roundtrip",
    "Succinct.C122_decode",
    "Succinct.C122_foreign",
    "Succinct.C122_nibble_vector",
    "Succinct.C122_topk"
   ],
   "note": "With assertions enabled; C87 is the same for 64 bits"
  },
  {
   "property": "C123",
   "status": "proved",
   "theorems": [
    "Succinct.C123_auto_file",
    "Succinct.C123_failure",
    "Succinct.C123_dangling_false"
   ],
   "note": "C123_dangling_false is the witness for the pointer that outlives its object"
  },
  {
   "property": "C124",
   "status": "proved",
   "theorems": [
    "Succinct.C124_enumerator",
    "Succinct.C124_one_vector",
    "Succinct.C124_unary",
    "Succinct.C124_mixed",
    "Succinct.C124_unary_freed"
   ],
   "note": "C124_mixed: what is read is the content of neither vector; C124_unary_freed: the condition on freeing is needed"
  },
  {
   "property": "C125",
   "status": "proved",
   "theorems": [
    "Succinct.C125_agree",
    "Succinct.C125_text",
    "Succinct.C125_iterators_differ"
   ],
   "note": "The sequence of strings; for a text with NUL bytes see C81"
  },
  {
   "property": "C126",
   "status": "proved",
   "theorems": [
    "Succinct.C126_gamma_vector",
    "Succinct.C126_gamma_bit_vector",
    "Succinct.C126_magnitude",
    "Succinct.C126_shorter",
    "Succinct.C126_mixed"
   ],
   "note": "Swaps of the containers; the unary words are those of the original content, as the swap leaves them in memory. Histories that start to read beyond the new digit sequence are outside the statement"
  },
  {
   "property": "C127",
   "status": "proved",
   "theorems": [
    "Succinct.C127_select_enumerator",
    "Succinct.C127_quotient",
    "Succinct.C127_mixed",
    "Succinct.C127_other_quotient"
   ],
   "note": "Assertions enabled; calls beyond the old number of values are outside the statement"
  },
  {
   "property": "C128",
   "status": "proved",
   "theorems": [
    "Succinct.C128_topk",
    "Succinct.C128_indices",
    "Succinct.C128_no_swap",
    "Succinct.C128_mixed"
   ],
   "note": "Fewer than 2^30-1 values in each object, range inside the contents of all objects"
  },
  {
   "property": "C129",
   "status": "proved",
   "theorems": [
    "Succinct.C129_list",
    "Succinct.C129_compressed_list",
    "Succinct.C129_held"
   ],
   "note": "Assertions enabled; length and sum bounds as in C26 and C27"
  },
  {
   "property": "C13",
   "status": "partial",
   "theorems": [
    "Succinct.C13_uleq_step_9",
    "Succinct.C13_zcompare_step_8",
    "Succinct.C13_same_msb",
    "Succinct.C13_leq_step_8_partial",
    "Succinct.C13_leq_step_8_false",
    "Succinct.C13_uleq_step_8_partial",
    "Succinct.C13_uleq_step_8_false",
    "Succinct.C13_leq_step_8_exact_partial",
    "Succinct.C13_uleq_step_8_exact_partial"
   ],
   "note": "claim is false of leq_step_8 and uleq_step_8 for arbitrary bytes (witnesses proved); each field proved right just if the stated range condition holds; the other three functions fully proved"
  },
  {
   "property": "C130",
   "status": "proved",
   "theorems": [
    "Succinct.C130_iterators",
    "Succinct.C130_example"
   ],
   "note": "Programs as in C43: objects used within their lifetimes, no vector assigned its own range; mapped images outlive the vectors; addresses are not reused in the model"
  },
  {
   "property": "C14",
   "status": "proved",
   "theorems": [
    "Succinct.C14_rank"
   ],
   "note": "all bit sequences, all hint flags; pos > size fails the assertion"
  },
  {
   "property": "C15",
   "status": "proved",
   "theorems": [
    "Succinct.C15_select"
   ],
   "note": "with and without hints; no out-of-bounds table access or assertion failure"
  },
  {
   "property": "C16",
   "status": "proved",
   "theorems": [
    "Succinct.C16_select0"
   ],
   "note": "with and without hints"
  },
  {
   "property": "C17",
   "status": "proved",
   "theorems": [
    "Succinct.C17_hints_irrelevant"
   ],
   "note": "any two choices of hint flags agree on every call"
  },
  {
   "property": "C18",
   "status": "proved",
   "theorems": [
    "Succinct.C18_darray1",
    "Succinct.C18_darray0"
   ],
   "note": "all bit sequences; both inventories (dense blocks and overflow blocks)"
  },
  {
   "property": "C19",
   "status": "proved",
   "theorems": [
    "Succinct.C19_darray64"
   ],
   "note": "all histories of append1 with skip <= 64"
  },
  {
   "property": "C20",
   "status": "proved",
   "theorems": [
    "Succinct.C20_select",
    "Succinct.C20_push_rejects"
   ],
   "note": "every universe n < 2^64, every capacity m <= 2^62 (the builder allocates more than m bits); m = 0 needs n + 2 < 2^64 only because the size of the high part would wrap (see C21_wrap_false)"
  },
  {
   "property": "C21",
   "status": "proved",
   "theorems": [
    "Succinct.C21_rank_access",
    "Succinct.C21_wrap_false"
   ],
   "note": "same hypotheses as C20; C21_wrap_false is the concrete failure for m = 0 and n = 2^64-1"
  },
  {
   "property": "C22",
   "status": "proved",
   "theorems": [
    "Succinct.C22_pred_succ",
    "Succinct.C22_universe_false"
   ],
   "note": "values below the universe, as in the statement; C22_universe_false shows the restriction is needed"
  },
  {
   "property": "C23",
   "status": "proved",
   "theorems": [
    "Succinct.C23_delta_range"
   ],
   "note": "every storable sequence and every valid index, no-underflow included"
  },
  {
   "property": "C24",
   "status": "proved",
   "theorems": [
    "Succinct.C24_select_enumerator"
   ],
   "note": "any start, any number of calls up to the last value"
  },
  {
   "property": "C25",
   "status": "proved",
   "theorems": [
    "Succinct.C25_bitmap"
   ],
   "note": "bitmaps given as arbitrary builder histories, length < 2^62"
  },
  {
   "property": "C26",
   "status": "proved",
   "theorems": [
    "Succinct.C26_list",
    "Succinct.C26_sum_sharp"
   ],
   "note": "sequences of at most 2^62 integers; the bound on the sum is sharp"
  },
  {
   "property": "C27",
   "status": "proved",
   "theorems": [
    "Succinct.C27_compressed_list",
    "Succinct.C27_max_rejected"
   ],
   "note": "sequences of fewer than 2^57 integers (keeps the number of stored bits below 2^63)"
  },
  {
   "property": "C28",
   "status": "proved",
   "theorems": [
    "Succinct.C28_gamma_vector",
    "Succinct.C28_max_rejected"
   ],
   "note": "sequences of any length"
  },
  {
   "property": "C29",
   "status": "proved",
   "theorems": [
    "Succinct.C29_gamma_bit_vector",
    "Succinct.C29_max_rejected"
   ],
   "note": "sequences of any length"
  },
  {
   "property": "C30",
   "status": "proved",
   "theorems": [
    "Succinct.C30_gamma_vector_enum",
    "Succinct.C30_gamma_bit_vector_enum",
    "Succinct.C30_generic"
   ],
   "note": "all starts and all histories of next/skip calls within the sequence"
  },
  {
   "property": "C31",
   "status": "proved",
   "theorems": [
    "Succinct.C31_find_close"
   ],
   "note": "balance by the Dyck grammar; any value of the over-wide shift at bp_vector.cpp:178"
  },
  {
   "property": "C32",
   "status": "proved",
   "theorems": [
    "Succinct.C32_find_open"
   ],
   "note": "includes both inverse laws"
  },
  {
   "property": "C33",
   "status": "proved",
   "theorems": [
    "Succinct.C33_enclose"
   ],
   "note": ""
  },
  {
   "property": "C34",
   "status": "proved",
   "theorems": [
    "Succinct.C34_excess",
    "Succinct.C34_build"
   ],
   "note": "every bit sequence from which construction succeeds (the assertion excess >= 0 of get_block_excess rejects sequences with negative excess at a block boundary); C34_build: construction succeeds for all prefix-nonnegative sequences"
  },
  {
   "property": "C35",
   "status": "proved",
   "theorems": [
    "Succinct.C35_excess_rmq",
    "Succinct.C35_excess_rmq_prefix"
   ],
   "note": "also for unbalanced sequences of nonnegative excess"
  },
  {
   "property": "C36",
   "status": "proved",
   "theorems": [
    "Succinct.C36_rmq",
    "Succinct.C36_rmq_builder",
    "Succinct.C36_unique"
   ],
   "note": "any value type and strict weak order; also for trees made from a caller-filled builder"
  },
  {
   "property": "C37",
   "status": "proved",
   "theorems": [
    "Succinct.C37_balanced",
    "Succinct.C37_size"
   ],
   "note": "any comparator; C37_balanced has no size bound"
  },
  {
   "property": "C38",
   "status": "proved",
   "theorems": [
    "Succinct.C38_topk",
    "Succinct.C38_unique"
   ],
   "note": "std::push_heap/pop_heap by the contract of the C++ standard (hypothesis HeapOps.Valid, shown satisfiable)"
  },
  {
   "property": "C39",
   "status": "proved",
   "theorems": [
    "Succinct.C39_enumerator"
   ],
   "note": "any previous state of the enumerator object; same heap contract as C38"
  },
  {
   "property": "C40",
   "status": "proved",
   "theorems": [
    "Succinct.C40_bit_vector",
    "Succinct.C40_rs_bit_vector",
    "Succinct.C40_bp_vector",
    "Succinct.C40_darray",
    "Succinct.C40_darray64",
    "Succinct.C40_elias_fano",
    "Succinct.C40_elias_fano_list",
    "Succinct.C40_elias_fano_compressed_list",
    "Succinct.C40_gamma_vector",
    "Succinct.C40_gamma_bit_vector",
    "Succinct.C40_nibble_vector",
    "Succinct.C40_cartesian_tree",
    "Succinct.C40_topk_vector",
    "Succinct.C40_topk_vector_of"
   ],
   "note": "every value whose array lengths fit 64 bits, any flags, any bytes around the image; one generic visitor proof plus the list of members of each class"
  },
  {
   "property": "C41",
   "status": "proved",
   "theorems": [
    "Succinct.C41_bit_vector",
    "Succinct.C41_rs_bit_vector",
    "Succinct.C41_bp_vector",
    "Succinct.C41_darray",
    "Succinct.C41_darray64",
    "Succinct.C41_elias_fano",
    "Succinct.C41_elias_fano_list",
    "Succinct.C41_elias_fano_compressed_list",
    "Succinct.C41_gamma_vector",
    "Succinct.C41_gamma_bit_vector",
    "Succinct.C41_nibble_vector",
    "Succinct.C41_cartesian_tree",
    "Succinct.C41_topk_vector"
   ],
   "note": "freeze also writes the 8-byte flags, which size_of leaves out; the theorem states the exact relation"
  },
  {
   "property": "C42",
   "status": "proved",
   "theorems": [
    "Succinct.C42_bit_vector",
    "Succinct.C42_rs_bit_vector",
    "Succinct.C42_bp_vector",
    "Succinct.C42_darray",
    "Succinct.C42_darray64",
    "Succinct.C42_elias_fano",
    "Succinct.C42_elias_fano_list",
    "Succinct.C42_elias_fano_compressed_list",
    "Succinct.C42_gamma_vector",
    "Succinct.C42_gamma_bit_vector",
    "Succinct.C42_nibble_vector",
    "Succinct.C42_cartesian_tree",
    "Succinct.C42_topk_vector",
    "Succinct.C42_pod_rejected"
   ],
   "note": "for the structures; size_tree_of applied to a plain value fails an assertion (C42_pod_rejected)"
  },
  {
   "property": "C43",
   "status": "proved",
   "theorems": [
    "Succinct.C43_ownership",
    "Succinct.C43_no_leak",
    "Succinct.C43_self_assign"
   ],
   "note": "all histories of the public operations over any number of vectors; assign of its own range to an owning vector is undefined (kept as a separate theorem)"
  },
  {
   "property": "C44",
   "status": "proved",
   "theorems": [
    "Succinct.C44_size",
    "Succinct.C44_roundtrip",
    "Succinct.C44_sequence"
   ],
   "note": ""
  },
  {
   "property": "C45",
   "status": "proved",
   "theorems": [
    "Succinct.C45_nibble_vector"
   ],
   "note": "out-of-range indices fail the assertion"
  },
  {
   "property": "C46",
   "status": "partial",
   "theorems": [
    "Succinct.C46_int2nat_partial",
    "Succinct.C46_int2nat_undefined",
    "Succinct.C46_nat2int_value",
    "Succinct.C46_nat2int_partial",
    "Succinct.C46_false"
   ],
   "note": "false of the code: int2nat overflows outside (-2^62, 2^62), nat2int(2^64-1) = nat2int(0); proved on the exact ranges where it holds"
  },
  {
   "property": "C47",
   "status": "partial",
   "theorems": [
    "Succinct.C47_line_partial",
    "Succinct.C47_eof",
    "Succinct.C47_lines_partial",
    "Succinct.C47_unterminated_false",
    "Succinct.C47_unterminated_rest",
    "Succinct.C47_false",
    "Succinct.C47_nul_false",
    "Succinct.C47_lines_exist"
   ],
   "note": "false of the code for every file whose last line has no newline: its last chunk is returned twice; proved for all newline-terminated files"
  },
  {
   "property": "C48",
   "status": "proved",
   "theorems": [
    "Succinct.C48_buffer_lines",
    "Succinct.C48_chomped_unique"
   ],
   "note": "every buffer; mmap_lines is modelled as buffer_line_iterator over the file contents"
  },
  {
   "property": "C49",
   "status": "partial",
   "theorems": [
    "Succinct.C49_line_iterator_partial",
    "Succinct.C49_false"
   ],
   "note": "false of the code for every file: one spurious empty line comes first; proved that the rest is exactly what fast_getline returns"
  },
  {
   "property": "C50",
   "status": "partial",
   "theorems": [
    "Succinct.C50_depth_partial",
    "Succinct.C50_any_length_partial",
    "Succinct.C50_large_false",
    "Succinct.C50_shallow_false"
   ],
   "note": "false of the code: for every size in [2^31, 2^32] construction violates an assertion, whatever the depth (excess_t(size()) is not positive), and for some larger sizes too; proved below 2^31 bits for every depth, and for every size with excess below 2^31-64: exactly when construction succeeds, and that then all queries are right"
  },
  {
   "property": "C51",
   "status": "partial",
   "theorems": [
    "Succinct.C51_aligned_partial",
    "Succinct.C51_bp_vector_false",
    "Succinct.C51_cartesian_tree_false",
    "Succinct.C51_topk_vector_false",
    "Succinct.C51_darray_false",
    "Succinct.C51_elias_fano_false",
    "Succinct.C51_elias_fano_list_false",
    "Succinct.C51_elias_fano_compressed_list_false",
    "Succinct.C51_gamma_vector_false",
    "Succinct.C51_gamma_bit_vector_false"
   ],
   "note": "holds for bit_vector, rs_bit_vector, darray64, nibble_vector; false for all other classes, each with a value built by the code as witness"
  },
  {
   "property": "C52",
   "status": "proved",
   "theorems": [
    "Succinct.C52_bit_vector",
    "Succinct.C52_rs_bit_vector",
    "Succinct.C52_bp_vector",
    "Succinct.C52_darray",
    "Succinct.C52_darray64",
    "Succinct.C52_elias_fano",
    "Succinct.C52_elias_fano_list",
    "Succinct.C52_elias_fano_compressed_list",
    "Succinct.C52_gamma_vector",
    "Succinct.C52_gamma_bit_vector",
    "Succinct.C52_nibble_vector",
    "Succinct.C52_cartesian_tree",
    "Succinct.C52_topk_vector",
    "Succinct.C52_map_accepts"
   ],
   "note": "map itself does not notice the truncation (C52_map_accepts)"
  },
  {
   "property": "C53",
   "status": "proved",
   "theorems": [
    "Succinct.C53_elias_fano_space",
    "Succinct.C53_list_space"
   ],
   "note": "exact sizes of all stored arrays"
  },
  {
   "property": "C54",
   "status": "proved",
   "theorems": [
    "Succinct.C54_rs_bit_vector_space"
   ],
   "note": "exact"
  },
  {
   "property": "C55",
   "status": "proved",
   "theorems": [
    "Succinct.C55_bp_vector_space"
   ],
   "note": "exact block minima; tree size 2^H + s with s <= 2^H < 2s"
  },
  {
   "property": "C56",
   "status": "proved",
   "theorems": [
    "Succinct.C56_darray_space",
    "Succinct.C56_darray64_space"
   ],
   "note": ""
  },
  {
   "property": "C57",
   "status": "proved",
   "theorems": [
    "Succinct.C57_gamma_vector_space",
    "Succinct.C57_gamma_bit_vector_space",
    "Succinct.C57_compressed_list_space",
    "Succinct.C57_nibble_vector_space"
   ],
   "note": ""
  },
  {
   "property": "C58",
   "status": "proved",
   "theorems": [
    "Succinct.C58_bit_vector",
    "Succinct.C58_rs_bit_vector",
    "Succinct.C58_bp_vector",
    "Succinct.C58_darray",
    "Succinct.C58_darray64",
    "Succinct.C58_elias_fano",
    "Succinct.C58_elias_fano_list",
    "Succinct.C58_elias_fano_compressed_list",
    "Succinct.C58_gamma_vector",
    "Succinct.C58_gamma_bit_vector",
    "Succinct.C58_nibble_vector",
    "Succinct.C58_cartesian_tree",
    "Succinct.C58_topk_vector"
   ],
   "note": "no hypothesis on the stored arrays, only bounds on the input size"
  },
  {
   "property": "C59",
   "status": "proved",
   "theorems": [
    "Succinct.C59_swap",
    "Succinct.C59_dispose"
   ],
   "note": "14 classes; dispose generic in the class"
  },
  {
   "property": "C60",
   "status": "partial",
   "theorems": [
    "Succinct.C60_default_partial",
    "Succinct.C60_rs_bit_vector_false",
    "Succinct.C60_bp_vector_false",
    "Succinct.C60_elias_fano_false",
    "Succinct.C60_elias_fano_list_false",
    "Succinct.C60_size_false",
    "Succinct.C60_restores"
   ],
   "note": "false of the code for rs_bit_vector, bp_vector, elias_fano, elias_fano_list (sum), elias_fano_compressed_list, gamma vectors and cartesian_tree (size wraps)"
  },
  {
   "property": "C61",
   "status": "partial",
   "theorems": [
    "Succinct.C61_self_append_partial",
    "Succinct.C61_stray_exact_partial",
    "Succinct.C61_self_append_false",
    "Succinct.C61_stray_false"
   ],
   "note": "false of the code: writes out of bounds for every builder of 64 or more bits, stray bits between 33 and 63 (proved exactly when); proved up to 32 bits"
  },
  {
   "property": "C62",
   "status": "proved",
   "theorems": [
    "Succinct.C62_comparisons",
    "Succinct.C62_canonical"
   ],
   "note": ""
  },
  {
   "property": "C63",
   "status": "proved",
   "theorems": [
    "Succinct.C63_inverse",
    "Succinct.C63_darray",
    "Succinct.C63_elias_fano",
    "Succinct.C63_lists"
   ],
   "note": ""
  },
  {
   "property": "C64",
   "status": "proved",
   "theorems": [
    "Succinct.C64_node",
    "Succinct.C64_parent",
    "Succinct.C64_children",
    "Succinct.C64_siblings",
    "Succinct.C64_lca",
    "Succinct.C64_all_nodes"
   ],
   "note": "forests of fewer than 2^30 nodes (the limit of the 32-bit block arithmetic)"
  },
  {
   "property": "C65",
   "status": "proved",
   "theorems": [
    "Succinct.C65_stream",
    "Succinct.C65_classes"
   ],
   "note": ""
  },
  {
   "property": "C66",
   "status": "proved",
   "theorems": [
    "Succinct.C66_injective",
    "Succinct.C66_refreeze"
   ],
   "note": ""
  },
  {
   "property": "C67",
   "status": "proved",
   "theorems": [
    "Succinct.C67_darray",
    "Succinct.C67_darray64",
    "Succinct.C67_select",
    "Succinct.C67_select_hints",
    "Succinct.C67_find",
    "Succinct.C67_excess_rmq",
    "Succinct.C67_topk"
   ],
   "note": "iterations of the loops no constant bounds, as equality of the query with the query cut off after k iterations"
  },
  {
   "property": "C68",
   "status": "proved",
   "theorems": [
    "Succinct.C68_winner",
    "Succinct.C68_rightmost",
    "Succinct.C68_maximum",
    "Succinct.C68_tie"
   ],
   "note": ""
  },
  {
   "property": "C69",
   "status": "partial",
   "theorems": [
    "Succinct.C69_bits_partial",
    "Succinct.C69_aligned",
    "Succinct.C69_false",
    "Succinct.C69_twice",
    "Succinct.C69_zero_extend",
    "Succinct.C69_free"
   ],
   "note": "false of the code: a spent builder writes into the padding of the vector, which get_word and freeze show; proved for everything confined to the bits of the vector and for lengths divisible by 64"
  },
  {
   "property": "C70",
   "status": "partial",
   "theorems": [
    "Succinct.C70_excess_rmq_partial",
    "Succinct.C70_rmq_partial",
    "Succinct.C70_excess_rmq_false",
    "Succinct.C70_rmq_false",
    "Succinct.C70_table"
   ],
   "note": "false of the code where char is unsigned; proved where char is signed"
  },
  {
   "property": "C71",
   "status": "proved",
   "theorems": [
    "Succinct.C71_prefix",
    "Succinct.C71_heap",
    "Succinct.C71_first",
    "Succinct.C71_subrange"
   ],
   "note": ""
  },
  {
   "property": "C72",
   "status": "proved",
   "theorems": [
    "Succinct.C72_find_close",
    "Succinct.C72_find_open",
    "Succinct.C72_enclose",
    "Succinct.C72_find_open_close",
    "Succinct.C72_padding_false",
    "Succinct.C72_accepts"
   ],
   "note": ""
  },
  {
   "property": "C73",
   "status": "proved",
   "theorems": [
    "Succinct.C73_bit_vector",
    "Succinct.C73_rs_bit_vector",
    "Succinct.C73_darray",
    "Succinct.C73_elias_fano",
    "Succinct.C73_elias_fano_no_rank",
    "Succinct.C73_lists",
    "Succinct.C73_constructors",
    "Succinct.C73_bp_vector",
    "Succinct.C73_range_queries",
    "Succinct.C73_get_bits_false",
    "Succinct.C73_excess_rmq_false",
    "Succinct.C73_rmq_false",
    "Succinct.C73_builder_set_false"
   ],
   "note": "the _false theorems show the calls that accept arguments outside their domain; the statement excludes them"
  },
  {
   "property": "C74",
   "status": "proved",
   "theorems": [
    "Succinct.C74_builder",
    "Succinct.C74_bit_vector",
    "Succinct.C74_rs_bit_vector",
    "Succinct.C74_new_false",
    "Succinct.C74_set_bits_false",
    "Succinct.C74_zero_extend_false"
   ],
   "note": "the _false theorems show the builder calls that wrap unnoticed; the statement excludes them"
  },
  {
   "property": "C75",
   "status": "proved",
   "theorems": [
    "Succinct.C75_darray",
    "Succinct.C75_darray64",
    "Succinct.C75_elias_fano",
    "Succinct.C75_pred_succ",
    "Succinct.C75_select_range_assert",
    "Succinct.C75_universe_false"
   ],
   "note": "C75_universe_false shows the constructor arguments the statement leaves out"
  },
  {
   "property": "C76",
   "status": "proved",
   "theorems": [
    "Succinct.C76_enumerator",
    "Succinct.C76_unary",
    "Succinct.C76_select_enumerator",
    "Succinct.C76_list",
    "Succinct.C76_list_sum_sharp",
    "Succinct.C76_compressed_list",
    "Succinct.C76_gamma_vector",
    "Succinct.C76_gamma_bit_vector"
   ],
   "note": "the call patterns for which C07 and C08 are false are excluded in the statement"
  },
  {
   "property": "C77",
   "status": "proved",
   "theorems": [
    "Succinct.C77_unary_actual",
    "Succinct.C77_new_oob",
    "Succinct.C77_machine"
   ],
   "note": ""
  },
  {
   "property": "C78",
   "status": "proved",
   "theorems": [
    "Succinct.C78_enumerator_actual",
    "Succinct.C78_runs_past_end"
   ],
   "note": ""
  },
  {
   "property": "C79",
   "status": "proved",
   "theorems": [
    "Succinct.C79_container",
    "Succinct.C79_mappable_vector",
    "Succinct.C79_compressed_list",
    "Succinct.C79_list",
    "Succinct.C79_gamma_vector",
    "Succinct.C79_gamma_bit_vector",
    "Succinct.C79_signed_false"
   ],
   "note": "C79_signed_false shows why the range must be ordered as the container's values are"
  },
  {
   "property": "C80",
   "status": "proved",
   "theorems": [
    "Succinct.C80_compressed_list",
    "Succinct.C80_gamma_vector",
    "Succinct.C80_gamma_bit_vector",
    "Succinct.C80_small",
    "Succinct.C80_uint32_false"
   ],
   "note": ""
  },
  {
   "property": "C81",
   "status": "proved",
   "theorems": [
    "Succinct.C81_fast_getline",
    "Succinct.C81_faithful",
    "Succinct.C81_undefined",
    "Succinct.C81_line_iterator"
   ],
   "note": ""
  },
  {
   "property": "C82",
   "status": "proved",
   "theorems": [
    "Succinct.C82_bp_vector",
    "Succinct.C82_cartesian_tree",
    "Succinct.C82_topk_vector",
    "Succinct.C82_darray",
    "Succinct.C82_elias_fano",
    "Succinct.C82_elias_fano_rank",
    "Succinct.C82_list",
    "Succinct.C82_compressed_list",
    "Succinct.C82_gamma_vector",
    "Succinct.C82_gamma_bit_vector",
    "Succinct.C82_always"
   ],
   "note": ""
  },
  {
   "property": "C83",
   "status": "proved",
   "theorems": [
    "Succinct.C83_history",
    "Succinct.C83_push_back",
    "Succinct.C83_repair",
    "Succinct.C83_retry_false",
    "Succinct.C83_uninit_false",
    "Succinct.C83_lost_false"
   ],
   "note": ""
  },
  {
   "property": "C84",
   "status": "proved",
   "theorems": [
    "Succinct.C84_ownership",
    "Succinct.C84_leak"
   ],
   "note": ""
  },
  {
   "property": "C85",
   "status": "proved",
   "theorems": [
    "Succinct.C85_bp_vector",
    "Succinct.C85_bp_vector_any_length",
    "Succinct.C85_rmq"
   ],
   "note": ""
  },
  {
   "property": "C86",
   "status": "proved",
   "theorems": [
    "Succinct.C86_same_answers",
    "Succinct.C86_balanced",
    "Succinct.C86_top_level",
    "Succinct.C86_unmatched_false"
   ],
   "note": ""
  },
  {
   "property": "C87",
   "status": "proved",
   "theorems": [
    "Succinct.C87_topk",
    "Succinct.C87_topk_containers",
    "Succinct.C87_nibble_vector",
    "Succinct.C87_vbyte"
   ],
   "note": ""
  },
  {
   "property": "C88",
   "status": "proved",
   "theorems": [
    "Succinct.C88_freeze",
    "Succinct.C88_classes",
    "Succinct.C88_undetected_false"
   ],
   "note": ""
  },
  {
   "property": "C89",
   "status": "proved",
   "theorems": [
    "Succinct.C89_image",
    "Succinct.C89_classes",
    "Succinct.C89_count_wraps_false"
   ],
   "note": ""
  },
  {
   "property": "C90",
   "status": "proved",
   "theorems": [
    "Succinct.C90_dump",
    "Succinct.C90_classes",
    "Succinct.C90_names_false"
   ],
   "note": ""
  },
  {
   "property": "C91",
   "status": "proved",
   "theorems": [
    "Succinct.C91_shared",
    "Succinct.C91_increment",
    "Succinct.C91_equal",
    "Succinct.C91_multipass_false"
   ],
   "note": "C91_multipass_false: the multipass guarantee of a forward iterator does not hold"
  },
  {
   "property": "C92",
   "status": "proved",
   "theorems": [
    "Succinct.C92_adaptors"
   ],
   "note": ""
  },
  {
   "property": "C93",
   "status": "proved",
   "theorems": [
    "Succinct.C93_rmq",
    "Succinct.C93_unique",
    "Succinct.C93_unordered",
    "Succinct.C93_nan_false"
   ],
   "note": "C93_nan_false: the minimum of 3, NaN, 1 is said to be 3"
  },
  {
   "property": "C94",
   "status": "proved",
   "theorems": [
    "Succinct.C94_topk",
    "Succinct.C94_nan_false"
   ],
   "note": "C94_nan_false: a NaN may keep the greatest value from being found"
  },
  {
   "property": "C95",
   "status": "proved",
   "theorems": [
    "Succinct.C95_comparisons",
    "Succinct.C95_queries"
   ],
   "note": ""
  },
  {
   "property": "C96",
   "status": "proved",
   "theorems": [
    "Succinct.C96_unary",
    "Succinct.C96_unary_once",
    "Succinct.C96_stream",
    "Succinct.C96_stream_same"
   ],
   "note": ""
  },
  {
   "property": "C97",
   "status": "proved",
   "theorems": [
    "Succinct.C97_topk"
   ],
   "note": "allocation modelled as spare room and a flag per call; std::vector::push_back assumed to change nothing when it throws"
  },
  {
   "property": "C98",
   "status": "proved",
   "theorems": [
    "Succinct.C98_elias_fano",
    "Succinct.C98_cartesian",
    "Succinct.C98_darray64",
    "Succinct.C98_darray64_retry_false"
   ],
   "note": "exceptions out of finalize() and the constructors are not modelled"
  },
  {
   "property": "C99",
   "status": "proved",
   "theorems": [
    "Succinct.C99_get_word56_big",
    "Succinct.C99_get_word56_false",
    "Succinct.C99_restores",
    "Succinct.C99_abroad",
    "Succinct.C99_classes"
   ],
   "note": "get_word56 is wrong on big-endian machines (known to its author, see the comment in the source)"
  }
 ]
}