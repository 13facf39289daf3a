{
 "claims": [
  {
   "property": "C01",
   "status": "proved",
   "theorems": [
    "Bwtc.Props.C01_packed_integer_roundtrip",
    "Bwtc.Props.C01_limit_is_sharp"
   ],
   "note": "All n < 2^56; beyond that the packing loop hits an undefined shift."
  },
  {
   "property": "C02",
   "status": "partial",
   "theorems": [
    "Bwtc.Props.C02_memory_integer_roundtrip_partial",
    "Bwtc.Props.C02_fails_at_zero"
   ],
   "note": "False for n = 0 (nothing is written); proved for every other 64-bit value."
  },
  {
   "property": "C03",
   "status": "proved",
   "theorems": [
    "Bwtc.Props.C03_split_exact",
    "Bwtc.Props.C03_coding_step"
   ],
   "note": ""
  },
  {
   "property": "C04",
   "status": "proved",
   "theorems": [
    "Bwtc.Props.C04_arithmetic_coding_roundtrip",
    "Bwtc.Props.C04_adaptive_coding_roundtrip",
    "Bwtc.Props.C04_consecutive_sequences"
   ],
   "note": ""
  },
  {
   "property": "C11",
   "status": "proved",
   "theorems": [
    "Bwtc.Props.C11_unary_roundtrip"
   ],
   "note": ""
  },
  {
   "property": "C12",
   "status": "proved",
   "theorems": [
    "Bwtc.Props.C12_bounded_binary_roundtrip"
   ],
   "note": ""
  },
  {
   "property": "C13",
   "status": "proved",
   "theorems": [
    "Bwtc.Props.C13_interpolative_roundtrip",
    "Bwtc.Props.C13_interpolative_from_zero"
   ],
   "note": ""
  },
  {
   "property": "C05",
   "status": "partial",
   "theorems": [
    "Bwtc.Props.C05_probabilities_legal_partial",
    "Bwtc.Props.C05_predictor_families",
    "Bwtc.Props.C05_fails_for_markov"
   ],
   "note": "Proved for models u, b, B/default, integer and gap model and for whole predictor families. False for the Markov models m and M (shift by a negative amount after a zero bit)."
  },
  {
   "property": "C06",
   "status": "partial",
   "theorems": [
    "Bwtc.Props.C06_markov_table_partial",
    "Bwtc.Props.C06_fails"
   ],
   "note": "False of the code: undefined probability after one zero, out-of-bounds access after w ones. Proved: table safety for histories without w consecutive ones."
  },
  {
   "property": "C07",
   "status": "partial",
   "theorems": [
    "Bwtc.Props.C07_reset_partial",
    "Bwtc.Props.C07_fails_for_default_model"
   ],
   "note": "False for the default model (FSM8 keeps its automaton state). Proved for u, b, integer and gap models; for B only the automaton state survives."
  },
  {
   "property": "C08",
   "status": "proved",
   "theorems": [
    "Bwtc.Props.C08_buffered_output",
    "Bwtc.Props.C08_plain_writes"
   ],
   "note": "Any positive buffer size; I/O errors not modelled."
  },
  {
   "property": "C09",
   "status": "proved",
   "theorems": [
    "Bwtc.Props.C09_buffered_input"
   ],
   "note": "Any positive buffer size; includes compressedDataEnding when at least two bytes or none remain."
  },
  {
   "property": "C10",
   "status": "proved",
   "theorems": [
    "Bwtc.Props.C10_length_field"
   ],
   "note": ""
  },
  {
   "property": "C14",
   "status": "proved",
   "theorems": [
    "Bwtc.Props.C14_block_header_roundtrip",
    "Bwtc.Props.C14_header_size",
    "Bwtc.Props.C14_prepared_count",
    "Bwtc.Props.C14_limit_is_sharp"
   ],
   "note": ""
  },
  {
   "property": "C15",
   "status": "proved",
   "theorems": [
    "Bwtc.Props.C15_slices_cover_block",
    "Bwtc.Props.C15_slices_unique",
    "Bwtc.Props.C15_zero_diverges"
   ],
   "note": "Positive maximal block size; with 0 the loop never ends (proved)."
  },
  {
   "property": "C16",
   "status": "proved",
   "theorems": [
    "Bwtc.Props.C16_run_scanning",
    "Bwtc.Props.C16_runs_unique",
    "Bwtc.Props.C16_empty_block_undefined"
   ],
   "note": "Non-empty blocks; scanning an empty block reads out of bounds (proved)."
  },
  {
   "property": "C23",
   "status": "proved",
   "theorems": [
    "Bwtc.Props.C23_sections"
   ],
   "note": ""
  },
  {
   "property": "C32",
   "status": "proved",
   "theorems": [
    "Bwtc.Props.C32_circular_buffer_is_queue",
    "Bwtc.Props.C32_overfull_loses_data"
   ],
   "note": "Callers must not push on a full buffer (shown necessary)."
  },
  {
   "property": "C33",
   "status": "partial",
   "theorems": [
    "Bwtc.Props.C33_frequency_table_partial",
    "Bwtc.Props.C33_removals_partial",
    "Bwtc.Props.C33_first_removal_undefined",
    "Bwtc.Props.C33_fails"
   ],
   "note": "False of the code: every first removal, and every increase that carries a key to the last place, reads m_frequencies[256]. Proved: all other sequences; removals under an assumption on the word read past the end."
  },
  {
   "property": "C17",
   "status": "proved",
   "theorems": [
    "Bwtc.Props.C17_huffman_lengths",
    "Bwtc.Props.C17_single_symbol",
    "Bwtc.Props.C17_length_bound"
   ],
   "note": "At least two symbols for the Kraft equality; a single symbol gets length 1. Length bound 44 for totals below 2^31."
  },
  {
   "property": "C18",
   "status": "proved",
   "theorems": [
    "Bwtc.Props.C18_huffman_optimal"
   ],
   "note": ""
  },
  {
   "property": "C19",
   "status": "proved",
   "theorems": [
    "Bwtc.Props.C19_canonical_codes"
   ],
   "note": "For tables satisfying the Kraft equality."
  },
  {
   "property": "C20",
   "status": "partial",
   "theorems": [
    "Bwtc.Props.C20_shape_roundtrip_partial",
    "Bwtc.Props.C20_fails"
   ],
   "note": "Proved for code lengths below 128, which covers every table the coder produces for totals below 2^31 (C17_length_bound). False when the longest length is 128 or more."
  },
  {
   "property": "C21",
   "status": "partial",
   "theorems": [
    "Bwtc.Props.C21_gamma_code_roundtrip",
    "Bwtc.Props.C21_stored_runs_partial",
    "Bwtc.Props.C21_long_run_undefined",
    "Bwtc.Props.C21_fails"
   ],
   "note": "Proved for run lengths below 2^29. A run of length 2^29 or more overflows the 64-bit bit buffer (negative shift, undefined)."
  },
  {
   "property": "C42",
   "status": "partial",
   "theorems": [
    "Bwtc.Props.C42_lookup_decoding_partial",
    "Bwtc.Props.C42_single_symbol",
    "Bwtc.Props.C42_fails"
   ],
   "note": "Proved for complete codes with lengths at most 50 and for single-symbol codes. Longer codes index outside the 50-row tables."
  },
  {
   "property": "C22",
   "status": "partial",
   "theorems": [
    "Bwtc.Props.C22_huffman_block_partial",
    "Bwtc.Props.C22_long_run_undefined",
    "Bwtc.Props.C22_fails"
   ],
   "note": "Whole-block round trip proved for blocks below 2^31 bytes without a run of 2^29 equal bytes; also the returned size and the length field. False with longer runs (undefined shift in the gamma writer)."
  },
  {
   "property": "C29",
   "status": "proved",
   "theorems": [
    "Bwtc.Props.C29_inverse_recovers_text",
    "Bwtc.Props.C29_lf_single_cycle"
   ],
   "note": "MtlSaInverseBWTransform, little-endian branch; every sorted suffix list is accepted, so the suffix sorters themselves are outside the model."
  },
  {
   "property": "C30",
   "status": "proved",
   "theorems": [
    "Bwtc.Props.C30_many_starting_points",
    "Bwtc.Props.C30_transform_and_back"
   ],
   "note": ""
  },
  {
   "property": "C31",
   "status": "proved",
   "theorems": [
    "Bwtc.Props.C31_neighbours_untouched",
    "Bwtc.Props.C31_all_slices"
   ],
   "note": "The suffix sorters are represented by a sort of the suffixes; a byte must be allocated behind the last slice."
  },
  {
   "property": "C34",
   "status": "proved",
   "theorems": [
    "Bwtc.Props.C34_numbering_is_bijective",
    "Bwtc.Props.C34_symbol_pairs",
    "Bwtc.Props.C34_expand_alphabet"
   ],
   "note": "Numbering of special pairs and alphabet expansion; integer square root is exact (the code uses floating-point sqrt on small numbers)."
  },
  {
   "property": "C36",
   "status": "partial",
   "theorems": [
    "Bwtc.Props.C36_replacement_undone_partial",
    "Bwtc.Props.C36_calm_partial",
    "Bwtc.Props.C36_calm_defined_partial",
    "Bwtc.Props.C36_one_round_partial",
    "Bwtc.Props.C36_in_place_writer_partial",
    "Bwtc.Props.C36_short_blocks",
    "Bwtc.Props.C36_two_bytes_lost",
    "Bwtc.Props.C36_last_byte_escaped",
    "Bwtc.Props.C36_fails"
   ],
   "note": "Any number of rounds is undone by the postprocessor if the in-place rounds are safe (at least 5 bytes, at most a third escaped, last byte not escaped, output fits); C36_calm_partial replaces the conditions on the fit and on the escapes by a bound of 1001 on the runs of odd length from 3 on in each text, C36_calm_defined_partial shows in addition that preprocessing is defined then, and C36_one_round_partial has conditions on the text alone. False for blocks of 2-4 bytes (last byte dropped) and for an escaped last byte with a nearly full buffer (a byte is overwritten)."
  },
  {
   "property": "C35",
   "status": "proved",
   "theorems": [
    "Bwtc.Props.C35_grammar_roundtrip",
    "Bwtc.Props.C35_every_run",
    "Bwtc.Props.C35_text_restored_partial"
   ],
   "note": "Every grammar built by rounds of the pair replacer; it is shorter than 2^20 bytes and the returned size is exact. C35_text_restored_partial chains it with C36 and inherits the restrictions of that property."
  },
  {
   "property": "C26",
   "status": "partial",
   "theorems": [
    "Bwtc.Props.C26_shape_roundtrip_partial",
    "Bwtc.Props.C26_fails"
   ],
   "note": "All distributions with run lengths below 2^30 for which the parameter search does not leave its containers (C27). False for a longer run in the table: the interpolative code shifts an int by 31."
  },
  {
   "property": "C27",
   "status": "partial",
   "theorems": [
    "Bwtc.Props.C27_search_partial",
    "Bwtc.Props.C27_exact",
    "Bwtc.Props.C27_fails",
    "Bwtc.Props.C27_fails_claim"
   ],
   "note": "False of the code: three or more run lengths, all equally frequent and none favoured by the floating-point comparison, dereference rend(). Proved safe in all other cases, for every outcome of the comparisons. If every run length occurs fewer than ten times, the criterion is exact (C27_exact): undefined if and only if there are three run lengths or more and all are equally frequent."
  },
  {
   "property": "C28",
   "status": "proved",
   "theorems": [
    "Bwtc.Props.C28_fixed_code_roundtrip",
    "Bwtc.Props.C28_run_code_roundtrip"
   ],
   "note": "All run lengths below 2^32 and all parameters that fit the four bits of the header."
  },
  {
   "property": "C24",
   "status": "proved",
   "theorems": [
    "Bwtc.Props.C24_tree_determines_message",
    "Bwtc.Props.C24_message_roundtrip",
    "Bwtc.Props.C24_tree_exists",
    "Bwtc.Props.C24_injective"
   ],
   "note": "For all prefix-free codes given by code trees and all messages below 2^32 bytes: pushMessage succeeds, and every tree with the same codes and bit vectors is read back as exactly the message; instantiated to the codes the encoder chooses; distinct messages have distinct trees."
  },
  {
   "property": "C25",
   "status": "proved",
   "theorems": [
    "Bwtc.Props.C25_lossless",
    "Bwtc.Props.C25_encoder_total",
    "Bwtc.Props.C25_message"
   ],
   "note": "Breadth-first coder and decoder (the ones the program uses). C25_lossless: arbitrary probability models, conditional on the encoder handing only probabilities up to 4096 to the range coder; C25_encoder_total: that happens with every model except the Markov ones (C05)."
  },
  {
   "property": "C43",
   "status": "partial",
   "theorems": [
    "Bwtc.Props.C43_wavelet_block_partial",
    "Bwtc.Props.C43_search",
    "Bwtc.Props.C43_short_runs",
    "Bwtc.Props.C43_five_bytes",
    "Bwtc.Props.C43_search_exact",
    "Bwtc.Props.C43_block_exact",
    "Bwtc.Props.C43_undefined",
    "Bwtc.Props.C43_markov_undefined",
    "Bwtc.Props.C43_fails"
   ],
   "note": "Whole-block round trip with threaded model states, for blocks below 2^31 bytes without a run of 2^30 equal bytes, whose sections pass the parameter search of C27, and models that never fail (all except the Markov ones: with those, a section whose root bits start with 0 reaches a shift by a negative amount). A section passes the search if it has at most five bytes, or if its runs have less than two bytes on average. For blocks below 2^30 bytes in whose sections every run length occurs fewer than ten times, C43_block_exact says exactly which ones are coded. False for the block abbccc: the constructor of the tree dereferences rend()."
  },
  {
   "property": "C37",
   "status": "proved",
   "theorems": [
    "Bwtc.Props.C37_block_header",
    "Bwtc.Props.C37_limit"
   ],
   "note": "Block sizes below 2^56 (C37_limit: larger ones have no header); grammars as in C35."
  },
  {
   "property": "C38",
   "status": "partial",
   "theorems": [
    "Bwtc.Props.C38_huffman",
    "Bwtc.Props.C38_huffman_large_partial",
    "Bwtc.Props.C38_wavelet_partial",
    "Bwtc.Props.C38_wavelet_sparse_partial",
    "Bwtc.Props.C38_wavelet_five_bytes",
    "Bwtc.Props.C38_preprocessed_partial",
    "Bwtc.Props.C38_calm_partial",
    "Bwtc.Props.C38_one_round_partial",
    "Bwtc.Props.C38_preprocessed_short",
    "Bwtc.Props.C38_undefined",
    "Bwtc.Props.C38_markov_undefined",
    "Bwtc.Props.C38_fails"
   ],
   "note": "Whole program, files as byte lists. Huffman without preprocessing: every file, every memory limit from 6 bytes to 2.9 GB. Wavelet coders u, b, B: blocks must pass the parameter search of C27; this holds for every file of at most five bytes, and for files in which no byte occurs more than twice in a piece. With preprocessing: the rounds must be safe as in C36; for one round conditions on the blocks of the file alone suffice (C38_one_round_partial). False: the six-byte file bbbaaa with the default options reaches an undefined dereference; with the Markov coders m, M false: the file ab reaches a shift by a negative amount."
  },
  {
   "property": "C39",
   "status": "partial",
   "theorems": [
    "Bwtc.Props.C39_memory_partial",
    "Bwtc.Props.C39_data_lost",
    "Bwtc.Props.C39_option_wraps",
    "Bwtc.Props.C39_never_ends",
    "Bwtc.Props.C39_fails"
   ],
   "note": "False of the code: with a limit of at most 5 every file is compressed to an empty one; a limit of 2^58 MB wraps to 0; with preprocessing and limits such as 10 slicing never ends. Proved from 6 bytes (Huffman, no preprocessing)."
  },
  {
   "property": "C41",
   "status": "partial",
   "theorems": [
    "Bwtc.Props.C41_tools_plain",
    "Bwtc.Props.C41_tools_partial",
    "Bwtc.Props.C41_one_round_partial",
    "Bwtc.Props.C41_byte_lost",
    "Bwtc.Props.C41_fails"
   ],
   "note": "Every file without preprocessing rounds; with rounds, as far as C36. False: a file of two bytes loses the second one."
  },
  {
   "property": "C40",
   "status": "partial",
   "theorems": [
    "Bwtc.Props.C40_length_fields",
    "Bwtc.Props.C40_returned_size_partial"
   ],
   "note": "Blocks: unconditional for every coder, including the Markov ones. Files: preprocessed blocks below 4 GB; the sorted frequencies and the word behind them as in C33/C36."
  },
  {
   "property": "C44",
   "status": "proved",
   "theorems": [
    "Bwtc.Props.C44_suffix_array",
    "Bwtc.Props.C44_arrays_apart",
    "Bwtc.Props.C44_same_as_sorting",
    "Bwtc.Props.C44_transform_and_back"
   ],
   "note": "All of sais.hxx that the program uses. Allocation failures are not modelled; what the bucket arrays leave in the free space is not represented, which C44_suffix_array covers by allowing any contents of the memory and C44_arrays_apart by showing that the arrays do not overlap."
  },
  {
   "property": "C45",
   "status": "proved",
   "theorems": [
    "Bwtc.Props.C45_same_as_sorting"
   ],
   "note": "All of divsufsort.c that the program uses, all of sssort.c and trsort.c; int is unbounded in the model.  Blocks of up to 21137958 bytes; for larger ones see C47."
  },
  {
   "property": "C46",
   "status": "proved",
   "theorems": [
    "Bwtc.Props.C46_substrings_sorted"
   ],
   "note": "All of sssort.c for the parameters of the program (block size 1024, stacks of 16 and 32 entries)."
  },
  {
   "property": "C47",
   "status": "proved",
   "theorems": [
    "Bwtc.Props.C47_never_wrong",
    "Bwtc.Props.C47_larger_stack"
   ],
   "note": "Whether 64 entries are enough for blocks of more than 21137958 bytes is not decided; the theorems say that an overflow of that stack is the only way in which larger blocks can fail, and that 85 entries would be enough."
  },
  {
   "property": "C48",
   "status": "proved",
   "theorems": [
    "Bwtc.Props.C48_suffixes_ranked",
    "Bwtc.Props.C48_stack_enough"
   ],
   "note": "All of trsort.c."
  },
  {
   "property": "C49",
   "status": "proved",
   "theorems": [
    "Bwtc.Props.C49_sais",
    "Bwtc.Props.C49_plain",
    "Bwtc.Props.C49_preprocessed",
    "Bwtc.Props.C49_never_different",
    "Bwtc.Props.C49_huffman_roundtrip"
   ],
   "note": "The container of C38 with the transforms of C44 and C45 in place of the one on sorted suffixes.  For memory limits beyond 113/116 MB with divsufsort only C49_never_different holds (the stack of trsort, see C47)."
  },
  {
   "property": "C50",
   "status": "partial",
   "theorems": [
    "Bwtc.Props.C50_growth_partial",
    "Bwtc.Props.C50_calm_partial",
    "Bwtc.Props.C50_grows",
    "Bwtc.Props.C50_overrun",
    "Bwtc.Props.C50_compress_undefined",
    "Bwtc.Props.C50_fails"
   ],
   "note": "False: a file of 91292 bytes with 1020 runs of three equal bytes grows by 18 bytes in the first round, whatever the order of equal frequencies; the in-place writer stores behind the block, so its compression with preprocessing is undefined for every coder. Proved: growth is at most the number of maximal runs of odd length from 3 on of bytes whose double is replaced, minus 1001; with at most 1001 such runs a text never grows and at most a third is escaped."
  },
  {
   "property": "C51",
   "status": "proved",
   "theorems": [
    "Bwtc.Props.C51_few_specials",
    "Bwtc.Props.C51_choice_defined"
   ],
   "note": "Texts below 4 GB less 395757 bytes, up to 224 rounds.  The word read behind the table of frequencies once special symbols exist is an environment value as in C33 and has to be at least 2^32.  The second sentence of the statement is C36_one_round_partial."
  },
  {
   "property": "C52",
   "status": "proved",
   "theorems": [
    "Bwtc.Props.C52_block",
    "Bwtc.Props.C52_huffman_file",
    "Bwtc.Props.C52_one_piece"
   ],
   "note": "Uses the optimality of the code lengths (C18) against the fixed code of eight bits, the growth of code lengths with the weights (Fibonacci), and a bound of eight bits per symbol for the interpolative code of the alphabet. For blocks without a run of 2^29 bytes, which memory limits up to 2.9 GB exclude."
  },
  {
   "property": "C53",
   "status": "proved",
   "theorems": [
    "Bwtc.Props.C53_fast_inverse",
    "Bwtc.Props.C53_either_inverse",
    "Bwtc.Props.C53_any_data"
   ],
   "note": "All uint32 arithmetic wraps in the model. The class is compiled but only reachable through the line commented out in giveInverseTransformer."
  },
  {
   "property": "C54",
   "status": "proved",
   "theorems": [
    "Bwtc.Props.C54_huffman",
    "Bwtc.Props.C54_any_coder"
   ],
   "note": "The outcome 'undefined behaviour' is part of what is compared. With preprocessing the choice of unused bytes does depend on the order of equal frequencies; that is outside of the claim."
  },
  {
   "property": "C55",
   "status": "proved",
   "theorems": [
    "Bwtc.Props.C55_concatenation"
   ],
   "note": "Sizes modulo 2^64 as returned."
  },
  {
   "property": "C56",
   "status": "proved",
   "theorems": [
    "Bwtc.Props.C56_written_files_restored",
    "Bwtc.Props.C56_no_file_begins_another",
    "Bwtc.Props.C56_preprocessed_partial",
    "Bwtc.Props.C56_preprocessed_short"
   ],
   "note": "From the success of the compressor instead of conditions on the input: covers the Markov models and the parameter search of C27, where C38 needs conditions. C56_preprocessed_partial: also with preprocessing, as far as C36 goes and the blocks do not grow. Memory limits of at most 5 bytes lose the data silently (C39_data_lost)."
  },
  {
   "property": "C57",
   "status": "proved",
   "theorems": [
    "Bwtc.Props.C57_appended_bytes_ignored",
    "Bwtc.Props.C57_never_ends_beyond_the_file",
    "Bwtc.Props.C57_no_two_readings",
    "Bwtc.Props.C57_truncated_files_are_not_read",
    "Bwtc.Props.C57_preprocessed_partial"
   ],
   "note": "What happens on a truncated file is undefined behaviour or an endless loop (the size field is then read from 0xff bytes), not an error message. C57_preprocessed_partial: truncation of files written with preprocessing, under the conditions of C56_preprocessed_partial; the first three theorems are for all files."
  },
  {
   "property": "C58",
   "status": "proved",
   "theorems": [
    "Bwtc.Props.C58_rejects_exactly_the_undocumented",
    "Bwtc.Props.C58_accepted_runs_are_restored",
    "Bwtc.Props.C58_huffman_runs",
    "Bwtc.Props.C58_bwt_option_irrelevant",
    "Bwtc.Props.C58_huge_mem_loses_data"
   ],
   "note": "From the parsed options on; the parsing itself (boost) is not modelled. C58_huge_mem_loses_data shows why the memory option is bounded in the statement: mem*1000000 is computed modulo 2^64, and 2^58 MB gives a limit of zero, with which all data is lost silently."
  },
  {
   "property": "C59",
   "status": "partial",
   "theorems": [
    "Bwtc.Props.C59_size_field_is_trusted",
    "Bwtc.Props.C59_written_files_partial",
    "Bwtc.Props.C59_fails"
   ],
   "note": "False of the code: the decoder stores a slice without comparing its size with the memory allocated from the size field. Proved exactly what every replacement of the first block's size field does: larger sizes go unnoticed, smaller ones overrun, zero ends silently. Files written by the compressor never overrun (without preprocessing; with it see C50)."
  },
  {
   "property": "C60",
   "status": "partial",
   "theorems": [
    "Bwtc.Props.C60_predictors_legal_partial",
    "Bwtc.Props.C60_counting_exact",
    "Bwtc.Props.C60_reset",
    "Bwtc.Props.C60_fails"
   ],
   "note": "The predictors and history models of the library that no option selects. False of the code for the counting predictor (probability zero from 4097 - 2A updates on, exactly) and for predictors with one level; proved for all others."
  },
  {
   "property": "C61",
   "status": "proved",
   "theorems": [
    "Bwtc.Props.C61_heap_is_a_priority_queue",
    "Bwtc.Props.C61_heap_sorts"
   ],
   "note": "MinimumHeap with its vector as a list; accesses outside of it and the removal from an empty heap are undefined in the model. The specification is a relation on bags of pairs."
  },
  {
   "property": "C62",
   "status": "proved",
   "theorems": [
    "Bwtc.Props.C62_shape_is_optimal",
    "Bwtc.Props.C62_few_symbols"
   ],
   "note": "createHuffmanShape with the weights modulo 2^64; the codes are those of collectCodes. The library tests this function, the coder itself uses calculateHuffmanLengths (C17, C18)."
  },
  {
   "property": "C63",
   "status": "proved",
   "theorems": [
    "Bwtc.Props.C63_at_most_twice_the_ideal",
    "Bwtc.Props.C63_within_one_bit_per_bit",
    "Bwtc.Props.C63_cost_in_bits",
    "Bwtc.Props.C63_worst_case"
   ],
   "note": "Stated with products instead of logarithms: 16^bytes times the product of the probabilities is at most 1 (256^bytes times the product at most 2^n). C63_cost_in_bits gives the form with costs in bits."
  },
  {
   "property": "C64",
   "status": "proved",
   "theorems": [
    "Bwtc.Props.C64_file_layout",
    "Bwtc.Props.C64_restored",
    "Bwtc.Props.C64_options",
    "Bwtc.Props.C64_appended_bytes_ignored",
    "Bwtc.Props.C64_never_ends_beyond_the_file",
    "Bwtc.Props.C64_truncated_files_are_not_read"
   ],
   "note": "The statement describes the code including the loss of data for sizes that wrap to zero. Rounds of pair replacement are the subject of C41. Failing allocation of a block is not modelled."
  },
  {
   "property": "C65",
   "status": "partial",
   "theorems": [
    "Bwtc.Props.C65_works_partial",
    "Bwtc.Props.C65_fails",
    "Bwtc.Props.C65_learning_overwritten"
   ],
   "note": "False of the code: `state = m_states[...]` copies the next state over the current one instead of moving on, so counters are duplicated and thirteen bits use up seven states, after which the replay calls itself without end (C65_fails). Proved for buffers smaller than the number of states. The class is never constructed by the program."
  },
  {
   "property": "C66",
   "status": "proved",
   "theorems": [
    "Bwtc.Props.C66_suffix_array",
    "Bwtc.Props.C66_never_wrong"
   ],
   "note": "sort_typeBstar with the sssort and the trsort of the program; construct_SA cell by cell with its asserts as conditions. The function is public in divsufsort.h and not called by the program."
  },
  {
   "property": "C67",
   "status": "partial",
   "theorems": [
    "Bwtc.Props.C67_code_partial",
    "Bwtc.Props.C67_steep_partial",
    "Bwtc.Props.C67_some_names",
    "Bwtc.Props.C67_symbol_lost",
    "Bwtc.Props.C67_null_pointer",
    "Bwtc.Props.C67_fails"
   ],
   "note": "False of the code: for three symbols with the first not more frequent than the third the third gets no code, and for four such symbols a null pointer is dereferenced, for all frequencies. Proved for up to three symbols otherwise, and for any number of symbols each of which is more frequent than all after it together. For all inputs: whatever is returned is a prefix code for some of the names (missing: which inputs with more than three symbols lose none). The only call is commented out (WaveletTree.hpp:348-350)."
  },
  {
   "property": "C68",
   "status": "partial",
   "theorems": [
    "Bwtc.Props.C68_encoder",
    "Bwtc.Props.C68_same_tree",
    "Bwtc.Props.C68_decoder_partial",
    "Bwtc.Props.C68_unread",
    "Bwtc.Props.C68_one_symbol",
    "Bwtc.Props.C68_leak",
    "Bwtc.Props.C68_fails"
   ],
   "note": "Proved for the encoder and every message. False for the decoder: readShape overwrites the root made by the constructor, so exactly one node is never freed; the destructor of a tree whose shape was not read follows the null pointer to the integer codes; and a one in the root of a tree with a single symbol (a damaged file) makes the decoder follow a null pointer. Everything else is proved for the decoder too."
  },
  {
   "property": "C69",
   "status": "partial",
   "theorems": [
    "Bwtc.Props.C69_stream",
    "Bwtc.Props.C69_block_calls",
    "Bwtc.Props.C69_size",
    "Bwtc.Props.C69_first_block_only",
    "Bwtc.Props.C69_one_block_partial",
    "Bwtc.Props.C69_preprocessed_partial",
    "Bwtc.Props.C69_preprocessed_short",
    "Bwtc.Props.C69_huffman_loses",
    "Bwtc.Props.C69_fails"
   ],
   "note": "False of the code: write48bits appends the length behind the block when fseek fails, and its first byte is read as the end of the file. Proved: the decoder restores exactly the first block and reports nothing (C69_first_block_only), so an input of one block survives (C69_one_block_partial) and every longer one is lost with the Huffman coder (C69_huffman_loses). With preprocessing the same holds if the first block is one slice, i.e. what it is replaced by has at most 2/11 of the limit (C69_preprocessed_partial; hypotheses of C56 on the blocks), so 5 to 255 bytes survive (C69_preprocessed_short); blocks of several slices: not stated."
  },
  {
   "property": "C70",
   "status": "proved",
   "theorems": [
    "Bwtc.Props.C70_msb",
    "Bwtc.Props.C70_msb16",
    "Bwtc.Props.C70_msb16_sharp",
    "Bwtc.Props.C70_isPrefix",
    "Bwtc.Props.C70_packed_in_memory"
   ],
   "note": "mostSignificantBit16 is right below 2^17, twice what its assertion asks for, and wrong at 2^17 + 1."
  },
  {
   "property": "C71",
   "status": "partial",
   "theorems": [
    "Bwtc.Props.C71_defined",
    "Bwtc.Props.C71_bound_partial",
    "Bwtc.Props.C71_fits_partial",
    "Bwtc.Props.C71_first_block",
    "Bwtc.Props.C71_huffman_exceeds",
    "Bwtc.Props.C71_small_exceeds",
    "Bwtc.Props.C71_fails",
    "Bwtc.Props.C71_sais_defined",
    "Bwtc.Props.C71_sais_partial",
    "Bwtc.Props.C71_sais_first_block",
    "Bwtc.Props.C71_sais_exceeds"
   ],
   "note": "False of the code: the run arrays of the Huffman coder are not accounted for, so every input that fills a block takes at least 1.1 times the limit, and the buckets of divsufsort are not, which exceeds limits of up to 3 MB with every coder. Proved: never more than 5/4 of the limit, everything released, and the limit itself kept from 4 MB on without preprocessing (10 MB with it, if no temporary array is used) with the other coders. Not counted: fixed-size objects, vectors of at most 65536 entries, stream buffers and the nodes of the wavelet tree. The sorter is divsufsort; with --bwt s (SA-IS) never more than 4/3 of the limit, everything released (C71_sais_partial)."
  },
  {
   "property": "C72",
   "status": "partial",
   "theorems": [
    "Bwtc.Props.C72_safe_partial",
    "Bwtc.Props.C72_room",
    "Bwtc.Props.C72_least",
    "Bwtc.Props.C72_same_calls",
    "Bwtc.Props.C72_leak",
    "Bwtc.Props.C72_fails",
    "Bwtc.Props.C72_failure_corrupts",
    "Bwtc.Props.C72_failure_silent",
    "Bwtc.Props.C72_failure_loses"
   ],
   "note": "False of the code: if the second of two requests fails (sais.hxx:529-530) the first array leaks (at most 256 cells), and the return value -2 is taken for a position: with one starting point the caller stores 4 GB behind the block, with several it silently loses a byte. Proved for all patterns of failures: no use or deletion of an array that is not held, -2 exactly if a request fails, nothing held otherwise, and the bound on the room."
  },
  {
   "property": "C73",
   "status": "partial",
   "theorems": [
    "Bwtc.Props.C73_released",
    "Bwtc.Props.C73_enough_partial",
    "Bwtc.Props.C73_silent",
    "Bwtc.Props.C73_fails"
   ],
   "note": "False of the code: the return value of divbwtf is not looked at, so if a request fails the block counts as transformed, reversed and with its last byte replaced by 0 (C73_silent, for every block); two different blocks then have the same outcome. Proved: the arrays are released whichever requests fail (C73_released), and with enough memory the block is transformed and can be transformed back (C73_enough_partial)."
  },
  {
   "property": "C74",
   "status": "partial",
   "theorems": [
    "Bwtc.Props.C74_truncated",
    "Bwtc.Props.C74_enough_partial",
    "Bwtc.Props.C74_block_calls",
    "Bwtc.Props.C74_archive_lost",
    "Bwtc.Props.C74_preprocessed_lost",
    "Bwtc.Props.C74_tool_lost",
    "Bwtc.Props.C74_output_lost",
    "Bwtc.Props.C74_fails"
   ],
   "note": "False of the code: no result of a write is looked at. Proved exactly: on a disk with room for cap bytes every program ends normally and leaves the first cap bytes of its output, with the length fields among them filled in although the positions asked for are wrong (C74_truncated), so with enough room nothing is lost (C74_enough_partial); a cut archive is unreadable (C74_archive_lost, with C57; with preprocessing C74_preprocessed_lost; a file of the preprocessing tool C74_tool_lost), a cut output of the decompressor goes unnoticed (C74_output_lost). The device is taken to store or drop each byte at once."
  },
  {
   "property": "C75",
   "status": "partial",
   "theorems": [
    "Bwtc.Props.C75_others_kept",
    "Bwtc.Props.C75_two_files_partial",
    "Bwtc.Props.C75_preprocessed_partial",
    "Bwtc.Props.C75_tools_two_files",
    "Bwtc.Props.C75_onto_itself",
    "Bwtc.Props.C75_uncompress_onto_itself",
    "Bwtc.Props.C75_tool_onto_itself",
    "Bwtc.Props.C75_fails"
   ],
   "note": "False of the code if both names denote the same file: the compressor then ends normally and leaves the archive of the empty file, whatever the content and the options (C75_onto_itself); the decompressor reads behind the end (C75_uncompress_onto_itself). The preprocessing tool loses the content in the same way (C75_tool_onto_itself). Proved for different files: the input stays, the output is restored by the decompressor, without preprocessing (C75_two_files_partial) and with it under the conditions of C56 (C75_preprocessed_partial), and by the postprocessing tool (C75_tools_two_files); no other file is ever changed (C75_others_kept)."
  },
  {
   "property": "C76",
   "status": "partial",
   "theorems": [
    "Bwtc.Props.C76_in_order",
    "Bwtc.Props.C76_any_pieces_partial",
    "Bwtc.Props.C76_same_blocks",
    "Bwtc.Props.C76_lost",
    "Bwtc.Props.C76_fails"
   ],
   "note": "False of the code if a call of fread delivers nothing although there is more: at the border of two blocks this is taken for the end of the input, and whatever follows is lost without notice (C76_lost). Proved: bytes are read in order, none twice, none left out but at the end (C76_in_order); if every call delivers something before the end, the blocks are those of a file with the same bytes (C76_any_pieces_partial, C76_same_blocks)."
  },
  {
   "property": "C77",
   "status": "partial",
   "theorems": [
    "Bwtc.Props.C77_huge_request",
    "Bwtc.Props.C77_huge_slices",
    "Bwtc.Props.C77_slices_partial",
    "Bwtc.Props.C77_fails",
    "Bwtc.Props.C77_released_partial",
    "Bwtc.Props.C77_written_partial",
    "Bwtc.Props.C77_preprocessed_partial",
    "Bwtc.Props.C77_exceeds"
   ],
   "note": "False of the code: the size in a block header is allocated before anything is checked, so seven bytes make the decompressor ask for a terabyte (C77_huge_request for every size below 2^56, C77_fails). Proved: if the decompressor ends normally everything is released and at most 7 times the largest block and 264217 bytes are in use (C77_released_partial); for files written without preprocessing at most 7 times the input and 1.302 times the limit of the compressor, and 264217 bytes (C77_written_partial); with preprocessing, under the hypotheses of C56, at most 1.832 times the limit (C77_preprocessed_partial). With a full block more than the limit is needed, at least 1.288 times (C77_exceeds). Missing: the grammar, the wavelet tree and the vectors of the postprocessor (C78) are not counted. The vector of slices is followed apart: the count in a header decides its size (C77_huge_slices), but in a file that is restored it has no more entries than the block has bytes (C77_slices_partial)."
  },
  {
   "property": "C78",
   "status": "partial",
   "theorems": [
    "Bwtc.Props.C78_doubling",
    "Bwtc.Props.C78_fails",
    "Bwtc.Props.C78_bound_partial",
    "Bwtc.Props.C78_used_partial",
    "Bwtc.Props.C78_rounds_partial",
    "Bwtc.Props.C78_preprocessed_partial"
   ],
   "note": "False of the code: the constructor of Postprocessor expands every rule, used or not, so n rules that double a byte make it hold 2^n bytes (C78_doubling, every n); 138 bytes of grammar hold a terabyte while one byte is written (C78_fails, through readGrammar). Proved: with right sides of at most m bytes and n rules no replacement is longer than m^n times one more than the number of freed symbols, and the text is at most as many times longer than the data (C78_bound_partial); for a well-formed grammar, every variable of which occurs in the data or in a later rule, no replacement is longer than the text (C78_used_partial); this is kept by every round of the preprocessor that replaces each of the pairs it chose at least once, so after any number of such rounds no replacement is longer than the text (C78_rounds_partial). The rounds of the code are of this kind: for every run of the preprocessor under the hypotheses of C36 the grammar it writes is read back to one with no replacement longer than the block (C78_preprocessed_partial). Missing: runs that C36 leaves out."
  },
  {
   "property": "C79",
   "status": "partial",
   "theorems": [
    "Bwtc.Props.C79_first_round",
    "Bwtc.Props.C79_every_text",
    "Bwtc.Props.C79_no_waste_partial",
    "Bwtc.Props.C79_one_round_partial"
   ],
   "note": "Proved for the first round on every text of up to 4 GB less 395757 bytes written to another array (C79_first_round; it is defined for every text of two bytes or more, C79_every_text), for one round in place under conditions on the text alone (C79_one_round_partial), and for runs of any number of rounds, in place or not, under the hypotheses of C36 (C79_no_waste_partial). Missing: the in-place rounds that C36 leaves out, which may damage the text."
  }
 ]
}