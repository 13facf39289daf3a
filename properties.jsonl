{"id": "C01", "title": "Packed integers round-trip through memory and through a stream", "statement": "For every integer n below 2^56, packing n and unpacking the packed word gives n back; writing the packed bytes to a stream (all of them, in order) followed by any other bytes, the readers used by the decoders (block-header reader, Huffman reader, wavelet bit-reversed reader) return n and leave exactly the following bytes unread. The number of bytes reported equals the number of bytes written, and zero takes one byte.", "quantifier": "all integers n < 2^56, all continuations of the stream", "why_tests_cant": "2^56 values times arbitrary trailing data; boundary values at every power of 2^7 and the zero case are only a few of the points where an off-by-one would show.", "anchors": ["Utils.cpp: packInteger, unpackInteger", "Utils.hpp: readPackedInteger, readPackedIntegerRev, pushBitsRev", "HuffmanCoders.cpp: writePackedInteger, readPackedInteger", "WaveletCoders.cpp: writePackedInteger, readPackedInteger"]}
{"id": "C02", "title": "In-memory variable-length integers round-trip", "statement": "For every 64-bit integer n, reading back the bytes produced by packAndWriteInteger with readAndUnpackInteger yields n and the same number of bytes, whatever bytes follow in the buffer.", "quantifier": "all 64-bit integers n, all following buffer contents", "why_tests_cant": "Round-trip over 2^64 values and arbitrary following memory; a defect at a single value (zero) is easily missed by sampling.", "anchors": ["Utils.cpp: packAndWriteInteger, readAndUnpackInteger"]}
{"id": "C03", "title": "The arithmetic coder's interval split never degenerates", "statement": "For every coder interval low < high of 32-bit values and every probability between 0 and 4096 inclusive, the split point satisfies low <= split < high and no intermediate 32-bit product or sum wraps, so both a one and a zero always remain encodable; after renormalisation low < high holds again and the renormalisation loop stops within four bytes.", "quantifier": "all pairs low < high of 32-bit values, all probabilities 0..4096, all bits", "why_tests_cant": "about 2^64 intervals times 4097 probabilities; the dangerous intervals (width 1, straddling a byte boundary) are reached only after long histories.", "anchors": ["BitCoders.cpp: Split, BitEncoder::encode, BitDecoder::decode"]}
{"id": "C04", "title": "Arithmetic coding round-trips with exact byte consumption", "statement": "For every sequence of (bit, probability) pairs with probabilities 0..4096 (in particular for probabilities produced by any adaptive model that only looks at earlier bits), encoding the bits and finishing, then starting a decoder on the produced bytes followed by any other data and asking it with the same probabilities, returns exactly the original bits, and the decoder has consumed exactly the bytes the encoder emitted. Consequently several sequences written one after another by the same encoder are decoded one after another.", "quantifier": "all bit sequences, all probability sequences or adaptive models, all trailing data, any number of consecutive sequences", "why_tests_cant": "The interval state depends on the whole history; no finite set of sequences covers carry/renormalisation patterns.", "anchors": ["BitCoders.cpp: BitEncoder::encode, BitEncoder::finish, BitDecoder::start, BitDecoder::decode"]}
{"id": "C05", "title": "Probability models always give a legal probability", "statement": "For every model selectable by the compressor options (m, M, u, b, B/default and the integer and gap models) and every history of observed bits and resets, the probability of a one it reports lies between 0 and 4096 (for the shipped parameters strictly between), so it is always acceptable to the arithmetic coder, and no automaton state index leaves its table.", "quantifier": "all bit histories of any length interleaved with resets, all shipped predictor parameters", "why_tests_cant": "Histories are unbounded; drift of an adaptive predictor to an illegal value can need arbitrarily long runs.", "anchors": ["probmodels/BitPredictors.hpp: UnbiasedPredictor, EvenIntervalPredictor, InversePredictor, ...", "probmodels/FSM.hpp: FSM, FSM6, FSM8, FSM9, nextState", "probmodels/ProbabilityModel.cpp: giveProbabilityModel, giveModelForIntegerCodes, giveModelForGaps"]}
{"id": "C06", "title": "Markov history models stay inside their history table", "statement": "For every bit history, the simple Markov models ('m', 'M') only read and write entries inside the table they allocated and only shift by non-negative amounts less than the word size.", "quantifier": "all bit histories", "why_tests_cant": "A violation needs a specific history (all ones for the word length) and is silent memory corruption when it happens.", "anchors": ["probmodels/ProbabilityModel.hpp: SimpleMarkov"]}
{"id": "C07", "title": "Resetting a model forgets the past", "statement": "After resetModel() every model predicts, on every continuation, exactly like a newly constructed model of the same kind, independent of the bits it has seen before.", "quantifier": "all histories before the reset, all continuations after it", "why_tests_cant": "Needs comparison of infinite behaviours from every reachable state.", "anchors": ["probmodels/FSM.hpp: resetModel", "probmodels/BitPredictors.hpp: resetModel", "WaveletCoders.cpp: endContextBlock"]}
{"id": "C08", "title": "Buffered output is what was written", "statement": "For every sequence of writeByte, writeBlock, flush, getPos and write48bits calls followed by closing the stream, the file contains exactly the bytes written in order, with each 48-bit field overwritten in place (big-endian, six bytes), and getPos returns the number of bytes written so far; the 64 KiB buffering is not observable.", "quantifier": "all sequences of stream operations, all block sizes (below, equal to and above the buffer size)", "why_tests_cant": "The behaviours at buffer-boundary alignments combine with any operation order; the tests exercise only short files.", "anchors": ["Streams.cpp: RawOutStream::writeByte, writeBlock, flush, getPos, write48bits", "Streams.hpp: RawOutStream"]}
{"id": "C09", "title": "Buffered input delivers the file in order at any bit alignment", "statement": "For every file content and every sequence of readBit, readByte, flushBuffer, readBlock (byte aligned) and read48bits calls that stays within the file, the values returned are the consecutive bits/bytes of the file (most significant bit first), independent of where the 64 KiB refills fall; flushBuffer skips to the next byte boundary and nothing else.", "quantifier": "all file contents, all sequences of read operations within the file", "why_tests_cant": "Interaction of bit offset with refill boundary over unbounded files and call sequences.", "anchors": ["Streams.cpp: RawInStream", "Streams.hpp: RawInStream::readBit, readByte, flushBuffer, read48bits"]}
{"id": "C10", "title": "The 48-bit length field is written back exactly and read back exactly", "statement": "For every value below 2^48, reserving a field, writing any data after it, and filling the field in afterwards leaves the preceding and following bytes untouched, and the reader obtains the same value.", "quantifier": "all values < 2^48, all preceding and following data", "why_tests_cant": "All positions and values; a byte-order or off-by-one error in position only corrupts some combinations.", "anchors": ["Streams.cpp: RawOutStream::write48bits", "Streams.hpp: RawInStream::read48bits", "HuffmanCoders.cpp: encodeData, finishBlock", "WaveletCoders.cpp: writeBlockHeader, finishBlock"]}
{"id": "C11", "title": "Unary codes round-trip", "statement": "For every n >= 1 and every following bit sequence, decoding the unary code of n gives n and consumes exactly the n bits of the code.", "quantifier": "all n >= 1, all following bits", "why_tests_cant": "n is unbounded and the following bits arbitrary.", "anchors": ["Utils.hpp: unaryCode, unaryDecode"]}
{"id": "C12", "title": "Bounded binary (centred minimal) codes round-trip", "statement": "For all bounds lo <= hi with hi-lo+1 <= 2^30 and every n in [lo,hi], the binary code of n within [lo,hi] followed by any bits decodes to n consuming exactly the bits of the code, and the reported bit count equals that number; the code of the only value of a one-element range is empty.", "quantifier": "all lo <= n <= hi with range at most 2^30, all following bits", "why_tests_cant": "Three-parameter family with irregular code lengths around every power of two.", "anchors": ["Utils.hpp: binaryCode, binaryDecode, logCeiling, pushBits"]}
{"id": "C13", "title": "Binary interpolative coding round-trips", "statement": "For every strictly increasing list of integers in [lo,hi] the interpolative code followed by any bits is decoded (given only lo, hi and the number of elements) to the same list, consuming exactly the code's bits, with the reported number of bits read equal to the code length.", "quantifier": "all strictly increasing lists within all ranges, all following bits", "why_tests_cant": "Recursion over arbitrary lists, with shortcuts when the range is full.", "anchors": ["Utils.hpp: binaryInterpolativeCode, binaryInterpolativeDecode"]}
{"id": "C14", "title": "BWT block header round-trips", "statement": "For every list of 1 to 256 starting positions, each below 2^31, the header written before an entropy-coded block is read back as the same list and the reader stops at the byte following the header.", "quantifier": "all lists of 1..256 values below 2^31, all following bytes", "why_tests_cant": "31-bit packing with padding over 256 lengths and all values.", "anchors": ["BWTBlock.cpp: writeHeader, readHeader"]}
{"id": "C15", "title": "Slicing a block for the BWT loses nothing", "statement": "For every block length and every positive slice size, the slices cover the block contiguously in order, each has at least one and at most slice-size bytes, all but the last are full, and concatenating them gives the block.", "quantifier": "all blocks, all positive slice sizes", "why_tests_cant": "Universally quantified over lengths and sizes; termination fails at slice size zero.", "anchors": ["PrecompressorBlock.cpp: sliceIntoBlocks"]}
{"id": "C16", "title": "Run scanning is lossless", "statement": "For every non-empty byte sequence, the runs stored by the run scanner expand back to the sequence, adjacent runs have different symbols, every run length is at least one, the number of runs is the number reported, and the per-symbol and per-length counts reported by the three scanning routines are exactly the counts of these runs.", "quantifier": "all non-empty byte sequences", "why_tests_cant": "The scanning loop treats the last run specially; correctness depends on position and length of final runs in unbounded inputs.", "anchors": ["Utils.cpp: calculateRunFrequencies, calculateRunsAndCharacters, calculateRunFrequenciesAndStoreRuns", "WaveletTree.hpp: pushMessage"]}
{"id": "C17", "title": "Huffman code lengths form a complete code", "statement": "For every table of symbol frequencies with at least two symbols present, the computed code lengths satisfy the Kraft equality (sum of 2^-length = 1), each present symbol receives exactly one length of at least one and at most (number of present symbols - 1); a single present symbol gets length one.", "quantifier": "all frequency tables (any alphabet size, any positive weights)", "why_tests_cant": "In-place three-phase algorithm over arbitrary weights; a slip corrupts only some weight patterns.", "anchors": ["Utils.cpp: calculateHuffmanLengths, calculateCodeLengths"]}
{"id": "C18", "title": "Huffman code lengths are optimal", "statement": "For every table of at least two positive frequencies, the weighted total length of the computed code is minimal among all prefix codes for those symbols.", "quantifier": "all frequency tables, all competing prefix codes", "why_tests_cant": "Optimality quantifies over all alternative codes.", "anchors": ["Utils.cpp: calculateCodeLengths"]}
{"id": "C19", "title": "Canonical Huffman codewords are prefix-free and fit the stored word", "statement": "For every assignment of lengths to the 256 symbols that satisfies the Kraft equality, the codewords computed from the lengths are pairwise prefix-free, and every codeword value fits into eight bits.", "quantifier": "all length assignments satisfying Kraft equality", "why_tests_cant": "Astronomically many length tables.", "anchors": ["Utils.cpp: computeHuffmanCodes"]}
{"id": "C20", "title": "Huffman code-length tables survive serialisation", "statement": "For every set of used symbols and lengths up to 255 (Kraft-complete, at least one symbol), reading the serialised table from the stream yields the same lengths for every one of the 256 symbols, and the reader consumes exactly the bits written rounded up to a byte boundary.", "quantifier": "all valid length tables, all following bytes", "why_tests_cant": "Combines interpolative coding, unary-like codes and padding over all tables.", "anchors": ["HuffmanCoders.cpp: serializeShape, deserializeShape"]}
{"id": "C21", "title": "Run-length gamma codes round-trip", "statement": "For every run length n >= 1 (below 2^31) the run-length code used by the Huffman coder decodes to n consuming exactly its bits whatever follows.", "quantifier": "all n >= 1, all following bits", "why_tests_cant": "Unbounded integers and arbitrary continuation.", "anchors": ["HuffmanCoders.cpp: gammaCode / gammaDecode portions of encodeData and decodeBlock"]}
{"id": "C22", "title": "Huffman block coding is lossless", "statement": "For every non-empty block content, the Huffman entropy coder's output for the block, followed by anything, is decoded to exactly that content and leaves exactly the following data unread.", "quantifier": "all block contents, all trailing data", "why_tests_cant": "Composition of run scanning, sections, code tables, bit packing and lookup-table decoding over all inputs.", "anchors": ["HuffmanCoders.cpp: HuffmanEncoder::encodeData, transformAndEncode, HuffmanDecoder::decodeBlock"]}
{"id": "C23", "title": "Block sections partition the symbol statistics", "statement": "For every table of symbol counts summing to the block length, the section lengths recorded in the block header are positive, sum to the block length, and (when there is more than one section) each is at least the minimum section size; header reading gives the same list.", "quantifier": "all count tables", "why_tests_cant": "All 256-entry tables; the remainder-merging rule only shows at special tails.", "anchors": ["HuffmanCoders.cpp: writeBlockHeader, readBlockHeader", "WaveletCoders.cpp: writeBlockHeader, readBlockHeader"]}
{"id": "C24", "title": "Wavelet tree construction is lossless", "statement": "For every byte sequence and every prefix-free assignment of codes to its symbols and run lengths, the sequence of bits stored in the tree determines the message: reading the tree back from a tree with the same codes gives the original bytes.", "quantifier": "all messages, all prefix codes", "why_tests_cant": "Recursive structure with implicit node positions for all code shapes.", "anchors": ["WaveletTree.hpp: pushMessage, pushRun, pushBits, message"]}
{"id": "C25", "title": "Wavelet bit-stream coding with gap vectors is lossless", "statement": "For every tree contents, the decoder that reads arithmetic-coded bits rebuilds the same node bit vectors the encoder wrote, for every probability model, including the nodes where the first bit after a run boundary is implied and not coded.", "quantifier": "all tree contents, all probability models", "why_tests_cant": "Encoder and decoder must agree bit by bit on which bits are implied, along every path of every tree.", "anchors": ["WaveletTree.hpp: encodeTreeBF, decodeTreeBF, encodeTree, decodeTree"]}
{"id": "C26", "title": "Wavelet code-table serialisation is faithful", "statement": "For every table of symbol and run-length codes chosen by the encoder, the decoder reconstructs from the serialised shape exactly the codes the encoder uses.", "quantifier": "all tables of code lengths the encoder can choose", "why_tests_cant": "Depends on sort order of equal lengths in rarely chosen parameter settings.", "anchors": ["WaveletTree.hpp: treeShape, readShape, assignPrefixCodes, findParametersForSemiFixedCodes, bitsForIntegers"]}
{"id": "C27", "title": "Choosing integer-code parameters never leaves the containers", "statement": "For every distribution of run lengths, the search for the run-length code parameters terminates and never dereferences a past-the-end element.", "quantifier": "all run-length distributions", "why_tests_cant": "The failing distributions have several equal frequencies; undefined behaviour may pass unnoticed in tests.", "anchors": ["WaveletTree.hpp: bitsForIntegers, findParametersForSemiFixedCodes"]}
{"id": "C28", "title": "Fixed and semi-fixed integer codes round-trip", "statement": "For every run length, the escape-coded integer representation used for lengths outside the code table is decoded to the same run length.", "quantifier": "all integers, all code parameters", "why_tests_cant": "Unbounded integers times parameters.", "anchors": ["WaveletTree.hpp: fixedIntegerCode, pushRun, message"]}
{"id": "C29", "title": "The inverse BWT recovers the text", "statement": "For every non-empty byte string, applying the inverse transform to the Burrows-Wheeler transform of the (sentinel terminated, reversed) string and its starting position returns the string; the algorithm's LF table is a permutation with a single cycle.", "quantifier": "all byte strings", "why_tests_cant": "All strings, including highly periodic ones, which stress rank stability.", "anchors": ["bwtransforms/MtlSaInverseBWT.cpp: doTransform", "bwtransforms/InverseBWT.cpp: FastInverseBWTransform::doTransform, doTransform", "bwtransforms/BWTransform.cpp: doTransform"]}
{"id": "C30", "title": "Inverse BWT with several starting points equals the single-start inverse", "statement": "For every text and every number of starting points 1..256 prepared by the compressor, running the inverse from all starting points in parallel produces the same text, no matter how the length divides.", "quantifier": "all texts, all counts of starting points", "why_tests_cant": "Remainder handling for every (length, count) combination.", "anchors": ["bwtransforms/MtlSaInverseBWT.cpp", "BWTBlock.cpp: prepareLFpowers", "bwtransforms/sais.hxx: computeBWT", "bwtransforms/divsufsort.c: construct_BWT"]}
{"id": "C31", "title": "The forward transform leaves its neighbours alone", "statement": "Transforming one slice of a block changes only that slice: the byte following the slice (used temporarily for the sentinel) and all other slices keep their values, for every slice position and content.", "quantifier": "all blocks, all slice positions, all sentinel positions", "why_tests_cant": "In-place aliasing between adjacent slices.", "anchors": ["bwtransforms/BWTransform.cpp: doTransform", "bwtransforms/BWTManager.cpp: doTransform"]}
{"id": "C32", "title": "The circular buffer is a FIFO queue", "statement": "For every sequence of pushes and consumes in which the buffer is never pushed when full, the elements come out in the order they went in, none lost or duplicated, with any wrap-around position.", "quantifier": "all operation sequences, all capacities", "why_tests_cant": "Wrap-around position and fill level depend on whole history.", "anchors": ["Utils.hpp: CircularBuffer"]}
{"id": "C33", "title": "The frequency table stays sorted and consistent", "statement": "For every sequence of increase, decrease and remove operations, the frequency table keeps keys sorted by frequency, and each key's reported frequency equals its initial frequency plus the changes made to it.", "quantifier": "all initial tables, all operation sequences", "why_tests_cant": "State-dependent reordering over unbounded sequences.", "anchors": ["preprocessors/FrequencyTable.cpp"]}
{"id": "C34", "title": "Escape pairs are numbered without collision", "statement": "For every number of special symbols, the mapping from index to ordered pair of special symbols and the mapping from pair to index are inverse to each other, so no two escaped symbols or rules share a code, and every pair below the count is used.", "quantifier": "all numbers of special symbols, all indices", "why_tests_cant": "Triangular numbering over unbounded sets.", "anchors": ["preprocessors/Grammar.cpp: numberOfSpecialPair, specialPair, expandAlphabet"]}
{"id": "C35", "title": "Grammar serialisation round-trips", "statement": "For every grammar the pair replacer can build (special symbols, replacements and rules), the grammar read back from the stream has the same special symbols, escapes and rules in the same order, and the reader stops at the byte after the grammar.", "quantifier": "all grammars, all following bytes", "why_tests_cant": "Structured data with variable-length fields and packed flag bytes.", "anchors": ["preprocessors/Grammar.cpp: writeGrammar, readGrammar"]}
{"id": "C36", "title": "Pair replacement is undone exactly", "statement": "For every byte sequence and every number of replacement rounds, expanding the rewritten sequence with the resulting grammar yields the original sequence.", "quantifier": "all byte sequences, all numbers of rounds, all choices of replaced pairs", "why_tests_cant": "Interaction of escapes, freed symbols and recursively nested rules in all texts.", "anchors": ["preprocessors/PairReplacer.cpp: writeReplacedVersion, finalizeReplacement", "preprocessors/Grammar.cpp: addRule, expandAlphabet", "preprocessors/Postprocessor.cpp: uncompress"]}
{"id": "C37", "title": "Block headers of the container round-trip", "statement": "For every block size, slice count and grammar, the block header written by the compressor is read back with the same values, and the end-of-stream marker is recognised and never confused with a block.", "quantifier": "all header values", "why_tests_cant": "All sizes and grammars with exact stream position.", "anchors": ["PrecompressorBlock.cpp: writeBlockHeader, writeEmptyHeader, readBlockHeader"]}
{"id": "C38", "title": "Decompress after compress is the identity", "statement": "For every input, every option accepted by the command line (preprocessing string, entropy coder letter, number of starting points, memory limit) decompressing the compressor's output reproduces the input byte for byte.", "quantifier": "all inputs, all option combinations", "why_tests_cant": "The property is the product's contract and quantifies over all inputs.", "anchors": ["Compressor.cpp: compress", "Decompressor.cpp: decompress", "EntropyCoders.cpp: giveEntropyEncoder, giveEntropyDecoder"]}
{"id": "C39", "title": "Compression terminates and stores all data for every memory limit", "statement": "For every memory limit the API accepts, compress() terminates and its output represents the entire input.", "quantifier": "all memory limits, all inputs", "why_tests_cant": "Degenerate limits produce zero-size blocks: either nothing is stored or slicing never terminates.", "anchors": ["Compressor.cpp: compress", "PrecompressorBlock.cpp: sliceIntoBlocks"]}
{"id": "C40", "title": "Compressed size returned is the number of bytes written", "statement": "For every input the number returned by compress() equals the number of bytes written to the output stream, and every length field equals the number of bytes that follow it for the block.", "quantifier": "all inputs and options", "why_tests_cant": "Sum over all blocks and headers, for all inputs.", "anchors": ["Compressor.cpp: compress", "HuffmanCoders.cpp: transformAndEncode", "WaveletCoders.cpp: transformAndEncode"]}
{"id": "C41", "title": "The postprocessing tools are inverse", "statement": "For every input, the stand-alone preprocess tool followed by the stand-alone postprocess tool reproduces the input.", "quantifier": "all inputs, all block sizes, all preprocessing strings", "why_tests_cant": "All inputs; block boundaries and in-band terminator.", "anchors": ["preprocess.cpp: preprocess", "postprocess.cpp: postprocess", "PrecompressorBlock.cpp"]}
{"id": "C42", "title": "Lookup-table Huffman decoding equals bit-by-bit decoding", "statement": "For every Kraft-complete length table and every bit sequence, decoding with the precomputed lookup tables gives the same symbols as matching codewords bit by bit, never consumes more bits than the codeword, and never indexes outside the tables.", "quantifier": "all length tables, all bit sequences", "why_tests_cant": "All tables times all bit patterns.", "anchors": ["HuffmanCoders.cpp: decodeBlock lookup tables"]}
{"id": "C43", "title": "Wavelet block coding is lossless across sections and blocks", "statement": "For every non-empty block content the wavelet coder's output for the block, followed by anything, is decoded to exactly that content and leaves exactly the following data unread, whatever blocks were coded before; the adaptive models of encoder and decoder are in the same states after every block; the returned size is the number of bytes written.", "quantifier": "all block contents, all section layouts, all probability models and model states left by earlier blocks, all trailing data", "why_tests_cant": "Composition of tree construction, shape, arithmetic coding and adaptive state that outlives sections and blocks; a missed reset shows only for particular histories.", "anchors": ["WaveletCoders.cpp: WaveletEncoder::transformAndEncode, encodeData, endContextBlock, finishBlock, WaveletDecoder::decodeBlock"]}
{"id": "C44", "title": "SA-IS computes the suffix array and the transform", "statement": "For every text the induced sorting of sais.hxx (all three stages, both variants of LMSsort, recursion, every placement of the bucket arrays) terminates, never leaves its arrays or the range of int, and yields exactly the sorted suffixes; the transform, the starting points and the character counts it delivers are those read off the sorted suffixes.", "quantifier": "all texts over all alphabets, all sizes and contents of the free space, all numbers of starting points", "why_tests_cant": "Induced sorting relies on bucket pointers, sign bits and flags of a recursive algorithm; wrong ordering shows only for particular repetitive texts, and the variants for large alphabets are entered only in deep recursion.", "anchors": ["bwtransforms/sais.hxx: getCounts, getBuckets, LMSsort1, LMSpostproc1, LMSsort2, LMSpostproc2, induceSA, computeBWT, stage1sort, stage3sort, suffixsort, saisxx_bwt", "bwtransforms/SA-IS-bwt.cpp: SAISBWTransform::doTransform"]}
{"id": "C45", "title": "divsufsort computes the transform", "statement": "For every block of up to 21 137 958 bytes the transform by divsufsort (the default sorter: classification of the suffixes into A, B and B*, sorting of the B* suffixes by sssort and trsort, the two induction passes that emit the transform) never leaves its arrays or overflows its stacks, terminates, and yields exactly the transform, the starting points and the character counts that are read off the sorted suffixes.", "quantifier": "all blocks of 1 to 21 137 958 bytes (the default block is 18 500 000 bytes; larger blocks: C47), all numbers of starting points, all contents of the allocated array", "why_tests_cant": "The sorter keeps several arrays in the same memory, marks entries by their sign and switches between algorithms by group size, recursion depth and budget; wrong orders show up only for particular repetitive texts of particular sizes.", "anchors": ["bwtransforms/divsufsort.c: sort_typeBstar, construct_BWT, divbwtf", "bwtransforms/sssort.c", "bwtransforms/trsort.c", "bwtransforms/Divsufsorter.hpp: Divsufsorter::doTransform"]}
{"id": "C46", "title": "sssort sorts the B* substrings", "statement": "Called as sort_typeBstar calls it, sssort terminates, never leaves the array, the text or its fixed-size stacks, changes only the cells to be sorted and the free space, and leaves the same substrings in sorted order with equal ones marked, for every way in which it splits the work (multikey introsort of blocks, heap sort fallback, merging with a buffer, in-place merging by rotations).", "quantifier": "all texts, all sets of substrings with a common prefix of two characters, all sizes and contents of the free space", "why_tests_cant": "The merge procedures are chosen by the ratio of group size and free space and carry marks of equal substrings across block boundaries; the stacks have 16 and 32 entries whatever the input.", "anchors": ["bwtransforms/sssort.c: ss_insertionsort, ss_heapsort, ss_mintrosort, ss_rotate, ss_inplacemerge, ss_mergeforward, ss_mergebackward, ss_swapmerge, sssort"]}
{"id": "C47", "title": "divsufsort never yields a wrong transform", "statement": "For every block below 2 GB: if the transform by divsufsort ends without overflowing the stack of 64 entries of tr_introsort, then its output, starting points and counts are those read off the sorted suffixes; with 85 entries the stack cannot overflow at all.", "quantifier": "all blocks below 2 GB, all numbers of starting points, all contents of the allocated array", "why_tests_cant": "Blocks of hundreds of megabytes with adversarial repetitions cannot be enumerated; the budget of trsort switches to unfinished passes only for particular inputs.", "anchors": ["bwtransforms/trsort.c: STACK_PUSH, tr_introsort, trsort", "bwtransforms/divsufsort.c: divbwtf"]}
{"id": "C48", "title": "trsort ranks the suffixes of the sequence of ranks", "statement": "Called as sort_typeBstar calls it, trsort terminates, never leaves the array or overflows its stack, changes only the cells of the suffixes and of their ranks, and leaves in the second the rank of every suffix of the sequence of ranks, for every course of the budget and every way of splitting (partition with copies, unfinished partial copies, heap sort fallback, insertion sort).", "quantifier": "all sequences of up to 10 568 979 ranks with the stack of 64 entries; all sequences below 2^32 with 91 entries; all contents of the cells in between", "why_tests_cant": "tr_copy relies on ranks that are updated while they are compared; which suffixes are sorted by copying depends on tandem repeats, and the budget aborts passes in the middle.", "anchors": ["bwtransforms/trsort.c: tr_ilg, tr_insertionsort, tr_fixdown, tr_heapsort, tr_median3, tr_median5, tr_pivot, trbudget_init, trbudget_check, tr_partition, tr_copy, tr_partialcopy, tr_introsort, trsort"]}
{"id": "C49", "title": "The compressed file does not depend on the suffix sorter", "statement": "Compressing with SA-IS, with divsufsort, or with sorted suffixes as specified gives the same file, byte for byte, whatever the allocated memory of the sorter holds; so a file can be decompressed whichever sorter made it.", "quantifier": "all inputs, entropy coders, numbers of starting points and rounds of preprocessing; SA-IS for every memory limit, divsufsort for memory limits of up to 113 MB without and 116 MB with preprocessing; for larger limits: whatever file is written is the same", "why_tests_cant": "The two sorters share no code, choose their work by the content of the block, and divsufsort is given blocks of every size up to the memory limit; a test compares them on a few files.", "anchors": ["bwtransforms/BWTransform.cpp: giveTransformer", "bwtransforms/BWTManager.cpp", "bwtransforms/Divsufsorter.hpp", "bwtransforms/SA-IS-bwt.cpp", "Compressor.cpp", "compress.cpp"]}
{"id": "C50", "title": "A preprocessed block fits into its memory", "statement": "A round of pair replacing makes a block of n bytes at most one byte longer, so that the in-place rewriting stays inside the n + 1 bytes allocated for the block, and escapes at most a third of the bytes, so that its circular buffer is large enough.", "quantifier": "all blocks of at least five bytes, all orders of equal frequencies, all states of the grammar", "why_tests_cant": "The writer relies on an estimate of the gain made from pair counts; whether the estimate is right depends on how runs of equal bytes of odd length lie in the text and on all byte frequencies at once.  The overrun needs more than a thousand such runs and frequencies in a narrow range, and the bytes behind the allocation may be harmless in a test run.", "anchors": ["preprocessors/PairReplacer.cpp: findReplaceables, writeReplacedVersion", "preprocessors/PairReplacer.hpp: analyseData, analyseData0", "PrecompressorBlock.cpp: PrecompressorBlock", "preprocessors/Precompressor.cpp: precompress"]}
{"id": "C51", "title": "Choosing the pairs to replace stays inside its tables", "statement": "Whatever the rounds of pair replacing so far have left in the grammar, the next round is defined on every text: the counters do not overflow, the search for the symbols to give up never leaves the table of 256 frequencies or the sorted list of pairs, and there are enough special symbols, so that the grammar can always be extended.  On a text with few runs of odd length whose last byte is common, one round of preprocessing is defined, does not lengthen the text and is undone by postprocessing.", "quantifier": "all non-empty texts below 4 GB, all grammars left by up to 224 rounds on any block, all orders of equal frequencies", "why_tests_cant": "The three loops of findReplaceables walk the table and the list with no check of their ends.  That they stop in time follows from the relation between the count of a pair and the counts of its symbols and from how many special symbols any sequence of rounds can make; a reading beyond the ends would mostly go unnoticed.", "anchors": ["preprocessors/PairReplacer.cpp: findReplaceablePairs, findReplaceables, decideReplacements", "preprocessors/FrequencyTable.cpp", "preprocessors/Grammar.cpp: expandAlphabet, updateRules", "preprocessors/Precompressor.cpp: precompress"]}
{"id": "C52", "title": "The Huffman coder expands no input by more than a fixed ratio", "statement": "Compressing with the Huffman coder and without preprocessing gives a file of at most 39/32 of the size of the input, plus 861 bytes and 31 bits per starting point for each piece of the input handled at once, plus two bytes. An input that is handled as one piece grows by at most a quarter and 1856 bytes.", "quantifier": "every input, every number of starting points, every memory limit from 6 bytes to 2.9 GB", "why_tests_cant": "The worst case is not known in advance: it depends on the frequencies (which decide the longest code and so the size of the stored shape), on the number of sections and on the number of distinct bytes. Random and sample files never come near it.", "anchors": ["HuffmanCoders.cpp:63-86", "HuffmanCoders.cpp:119-261", "HuffmanCoders.cpp:271-313", "Utils.hpp:238-297", "Compressor.cpp:65-118", "BWTBlock.cpp:61-86"]}
{"id": "C53", "title": "The alternative inverse transform is correct at every size and safe on damaged data", "statement": "FastInverseBWTransform, which giveInverseTransformer offers in place of the one in use, returns the block for every transformed block, also where characters occur more than 2^24 times and the stored ranks are cut off to 24 bits; it depends only on the first starting row. On arbitrary data with an end-of-block row inside the block it terminates, stays inside its arrays and keeps the length.", "quantifier": "every block with fewer than 2^32 - 1 bytes, every number of starting points; for the second part every byte list and every row in it", "why_tests_cant": "The milestone search is only exercised once a byte occurs 2^24 times in one block, and then only with wrong results far into the block; termination on damaged data depends on all of the LF mapping.", "anchors": ["InverseBWT.cpp:42-51", "InverseBWT.cpp:58-115"]}
{"id": "C54", "title": "The compressed file is determined by the input and the options", "statement": "Without preprocessing, the bytes written, the returned size, and whether the compressor reaches defined behaviour at all do not depend on uninitialised memory, on the order std::sort gives to equal elements, or on the words behind arrays. With the Huffman coder they do not depend on floating-point results either; with the wavelet coders those comparisons are the only influence.", "quantifier": "every input, every memory limit, every number of starting points, every coder, any two environments", "why_tests_cant": "A test runs in one environment; a stray byte read behind the block would only show when memory happens to hold a different value.", "anchors": ["Compressor.cpp:65-118", "PrecompressorBlock.cpp:46-48", "BWTManager.cpp"]}
{"id": "C55", "title": "Huffman files of block-aligned inputs can be joined", "statement": "With the Huffman coder and no preprocessing, the file for a ++ b, where the length of a is a multiple of the block size, is the file for a without its end mark followed by the file for b without its first byte, and the returned sizes add up; the file for a ++ b is written if and only if both others are. So blocks can be compressed in parallel or appended.", "quantifier": "every a filling its blocks, every b, every memory limit from 6 bytes", "why_tests_cant": "Block independence concerns all pairs of inputs and any number of blocks; a leak of state between blocks may only show for particular neighbours.", "anchors": ["Compressor.cpp:84-118", "HuffmanCoders.cpp:50-61"]}
{"id": "C56", "title": "Whatever the compressor writes, the decompressor restores", "statement": "Without preprocessing, whenever the compressor gets to the end of the input without undefined behaviour, the size it returns is the size of the file (modulo 2^64) and the decompressor restores exactly the input from it, whatever data follows the file. So no written file is silently wrong, no file is the beginning of the file of another input, and the file alone tells the input whatever options it was written with.", "quantifier": "every input, every coder letter including the Markov models and letters the program does not know, every number of starting points, every memory limit from 6 bytes to 2.9 GB, all outcomes of floating-point comparisons", "why_tests_cant": "Whether the coders can fail silently depends on the states the adaptive models reach; the models that can fail (Markov) do so on most inputs, so tests of them say little about the inputs on which they do not.", "anchors": ["Compressor.cpp:65-118", "Decompressor.cpp:50-93", "WaveletCoders.cpp:82-219", "WaveletCoders.cpp:250-290", "probmodels/ProbabilityModel.cpp:87-128", "EntropyCoders.cpp:38-65"]}
{"id": "C57", "title": "A truncated file is never mistaken for a complete one", "statement": "The result of the decompressor depends only on the bytes up to the end marker: appending bytes to any file it reads, valid or damaged, changes nothing, and if it gets to an end with the 0xff bytes that the input stream delivers behind the end of the data, it has not used any of them. So no proper beginning of a file written by the compressor is decompressed to an end: there is no truncation that silently yields a part of the data or other data as if it were complete.", "quantifier": "every file (also damaged ones) and every continuation; for truncation every input, every coder letter, number of starting points, memory limit from 6 bytes to 2.9 GB, every point of truncation, any number of 0xff bytes", "why_tests_cant": "Each of the readers (headers, grammar, interpolative and unary codes, the byte-wise Huffman decoder with its look-ahead, the range decoder) could read too far or accept an end by accident; tests cut a few files at a few points.", "anchors": ["Decompressor.cpp:50-93", "Streams.cpp:167-175", "Streams.hpp:120-153", "PrecompressorBlock.cpp:103-112", "HuffmanCoders.cpp:342-612", "WaveletCoders.cpp:250-290"]}
{"id": "C58", "title": "Options of the command line are checked and used as given", "statement": "compress stops with an error, before anything is written, exactly if an option has a value that its help text does not offer (starting points outside 1-256, an unknown sorter or coder letter, a preprocessing string with other letters than p). With accepted options, no preprocessing and at most 2902 MB, for every sorter: the first byte of the file is the chosen coder's letter, the number of starting points is used without clamping, the size reported is the size of the file, and uncompress restores the input. With --enc H and at most 113 MB (the default is 100) every accepted command line does write a file. The --bwt option does not change the file.", "quantifier": "every combination of given and omitted options and every value, every input below 2^56 bytes, all contents of freshly allocated memory", "why_tests_cant": "The options interact (defaults, clamping, multiplication of the memory option modulo 2^64, sorter and coder selection by letter); tests run a few combinations on a few inputs.", "anchors": ["compress.cpp:45-206", "uncompress.cpp:47-103", "bwtransforms/BWTManager.cpp:38-80", "Compressor.cpp:60-63"]}
{"id": "C59", "title": "A damaged size field does not corrupt memory", "statement": "However the file is damaged, decoding a block does not store bytes outside the memory allocated for it. (False of the code; exactly: if the size field of the first block of a written file is replaced, a larger size has no effect at all, a size smaller by two or more makes the decoder store the whole block into the too small memory, and a zero makes decompression end successfully with no output. Files that the compressor has written never overrun.)", "quantifier": "every written file of every coder, every replacement of the size field, whatever follows the file", "why_tests_cant": "Tests decompress files that were just compressed; the effect of damage has to be known for every file and every value of the field.", "anchors": ["Decompressor.cpp:66-90", "PrecompressorBlock.cpp:36-38", "PrecompressorBlock.cpp:103-112", "HuffmanCoders.cpp:342-612", "WaveletCoders.cpp:250-290"]}
{"id": "C60", "title": "The predictors of the library give legal probabilities", "statement": "Every bit predictor and history model that can be plugged into the coder (interval predictors with 2, 3, 5 and any admissible number of levels, the biased and the aggressive predictor, the counting predictor, limited-history models over them, inverses and automata) predicts strictly between 0 and 4096 after every history of updates, state updates and resets, without an index outside its table, an endless loop or an overflow of its 16-bit numbers. (False for the counting predictor after 4097-2A updates and for predictors with one level.)", "quantifier": "every history of calls, every template argument the compile-time checks admit, every history length", "why_tests_cant": "A probability of 0 or 4096 destroys the coded data only when the improbable bit occurs; the bad state may be reachable only after thousands of particular updates.", "anchors": ["probmodels/BitPredictors.hpp:67-296", "probmodels/FSM.hpp:292-323"]}
{"id": "C61", "title": "The heap is a priority queue", "statement": "Whatever sequence of insertions and removals is carried out on an empty MinimumHeap, every removal returns a pair of the least weight among those inserted and not yet removed, nothing is lost or duplicated, and no access leaves the vector, provided no removal meets an empty heap; inserting everything and removing everything sorts by weight.", "quantifier": "every sequence of operations, every number of elements, every weights (ties included)", "why_tests_cant": "The two tests use three and six elements; a wrong child or parent index shows only for certain shapes of larger heaps and certain orders of weights.", "anchors": ["WaveletTree.hpp:1386-1438"]}
{"id": "C62", "title": "The heap-built tree is an optimal prefix code", "statement": "For every table of frequencies with at least two positive entries whose sum is below 2^64, createHuffmanShape builds a tree in which every occurring symbol has exactly one code, no code is a prefix of another, and no prefix-free code needs fewer bits in total; a single symbol gets the code 0; an empty table is undefined.", "quantifier": "every table of frequencies, every competing prefix-free code", "why_tests_cant": "Optimality compares with all prefix codes; a test can compare one table with one expected tree.", "anchors": ["WaveletTree.hpp:1496-1549"]}
{"id": "C63", "title": "The arithmetic coder stays close to the ideal code length", "statement": "For every sequence of bits with announced probabilities strictly between 0 and 1, the bytes emitted by the arithmetic coder before its final four are at most twice the ideal code length, and also at most the ideal code length plus one bit per coded bit (the latter also for probabilities 0 and 1); in particular at most 13 bits per coded bit and 4 bytes at the end.", "quantifier": "every sequence of bits and probabilities of any length", "why_tests_cant": "The interval of the coder is not widened when it straddles a byte boundary, so it can shrink to two values; how much that costs depends on adversarial sequences no random test meets.", "anchors": ["BitCoders.cpp:59-113"]}
{"id": "C64", "title": "The preprocessing and postprocessing tools without preprocessing", "statement": "Called without preprocessing string, the preprocessing tool writes the blocks of the size asked for, each with its size and an empty grammar, and a zero byte, and the postprocessing tool restores the input, exactly unless the block size is a positive multiple of 2^54 kB: then the file written is a single zero byte and all data is lost. Errors and help are reported exactly for the documented options. Bytes behind the end marker are ignored, and no proper beginning of a written file is accepted.", "quantifier": "every input below 2^56 bytes, every block size of 64 bits, every file for the statements about reading", "why_tests_cant": "The product of the block size with 1024 wraps only for sizes no test asks for; truncation concerns every position of every file.", "anchors": ["preprocess.cpp:57-184", "postprocess.cpp:64-104", "PrecompressorBlock.cpp:64-124"]}
{"id": "C65", "title": "The dynamic Markov model always returns with a legal probability", "statement": "For all parameters the compile-time assertions admit and every safe predictor, after every history of updates, state updates and resets each call of the dynamic Markov model returns without undefined behaviour, and its probability is strictly between 0 and 1.", "quantifier": "all parameters, all predictors, all histories of calls of any length", "why_tests_cant": "The replay of the buffer when the states are used up calls update recursively; whether it ends depends on a counting argument over all bit sequences that the assertion was meant to secure.", "anchors": ["probmodels/DMC.hpp:39-141"]}
{"id": "C66", "title": "divsufsort leaves the suffix array", "statement": "For every text, whatever the array holds at the start, divsufsort ends, performs no access outside of the text, the array and its stacks, violates none of its assertions, and leaves the start positions of all suffixes in lexicographic order.", "quantifier": "all texts (up to 21137959 bytes; below 2 GB: if it ends, the array is right), all initial contents of the array", "why_tests_cant": "The two induction passes mark cells by complementing them, and which cells are marked depends on the types of all suffixes; a wrong mark shows only for texts with particular runs.", "anchors": ["bwtransforms/divsufsort.c:194-256", "bwtransforms/divsufsort.c:411-438", "bwtransforms/divsufsort.h:68-76"]}
{"id": "C67", "title": "Hu-Tucker code lengths exist for every symbol", "statement": "For all distinct symbols and all frequencies calculateHuTuckerLengths returns, without dereferencing a null pointer, the lengths of a prefix code with exactly one word for each symbol.", "quantifier": "all frequencies, all lists of distinct symbols", "why_tests_cant": "The two passes over a vector of pointers lose or follow null pointers depending on the order of the frequencies; a few sample frequencies may happen to work.", "anchors": ["Utils.cpp:235-393"]}
{"id": "C68", "title": "Every node of a wavelet tree is freed exactly once", "statement": "From the constructor of a WaveletTree over everything pushed into it or decoded into it to the end of its destructor no null pointer is followed, no deleted node is touched or deleted again, and every node that was allocated is deleted; this for the encoder, for the decoder whatever bits it finds, and for a tree that nothing has been read into.", "quantifier": "all messages and outcomes of floating-point comparisons (encoder), all code lengths for which the code trees exist and all decoded bits (decoder), all states of the heap", "why_tests_cant": "A leak or a use after free has no visible result in a unit test, and the shapes of code trees are unbounded.", "anchors": ["WaveletTree.hpp:54-71", "WaveletTree.hpp:279-360", "WaveletTree.hpp:387-500", "WaveletTree.hpp:857-1275", "WaveletTree.hpp:1440-1482"]}
{"id": "C69", "title": "What the compressor sends through a pipe can be decompressed", "statement": "When the output of the compressor is stdout and stdout is a pipe, the bytes that arrive at the other end decompress to the input, as those of a compressed file do.", "quantifier": "all inputs, coders, memory limits and numbers of starting points, without preprocessing", "why_tests_cant": "Tests compress to files and to inputs of one block; what happens on a stream that cannot be positioned depends on the number of blocks.", "anchors": ["Streams.cpp:43-117", "HuffmanCoders.cpp:57-60", "HuffmanCoders.cpp:259-276", "WaveletCoders.cpp:82-86", "WaveletCoders.cpp:161-178", "Compressor.cpp:65-118", "compress.cpp:181"]}
{"id": "C70", "title": "The helpers on bits, strings and packed integers in memory", "statement": "mostSignificantBit returns the highest power of two not above its argument (0 for 0), mostSignificantBit16 does so on the range it is meant for, isPrefix tells whether its first string is a prefix of the second and reads nothing outside them, and a packed integer stored with writePackedInteger(to) is what readPackedInteger(to) returns, both touching only the reported number of bytes.", "quantifier": "all 32-bit numbers, all strings, all integers below 2^56 and all buffers", "why_tests_cant": "The tests of the repository check ten of 2^32 numbers; which of the other bit patterns leave a second bit is not visible from them.", "anchors": ["Utils.cpp:36-57", "Utils.cpp:172-177", "Utils.cpp:475-496", "test/UtilsTest.cpp:50-62"]}
{"id": "C71", "title": "The memory limit is kept", "statement": "The bytes held by the compressor in the arrays whose size depends on the input never exceed the limit given with --mem, and all of them are released when it ends.", "quantifier": "all inputs, coders, numbers of starting points and preprocessing rounds, and all limits from one megabyte on", "why_tests_cant": "What is held is the sum of arrays allocated in five classes, and its maximum depends on where the input is cut; a test measures single inputs and single limits.", "anchors": ["compress.cpp:113-114", "compress.cpp:179", "Compressor.cpp:48-98", "Precompressor.cpp:51-106", "PrecompressorBlock.cpp:41-62", "PairReplacer.cpp:319-345", "HuffmanCoders.cpp:126-127", "bwtransforms/divsufsort.c:481-521"]}
{"id": "C72", "title": "The heap arrays of SA-IS are released, also when memory runs out", "statement": "On every level of its recursion SA-IS uses and deletes only arrays that it holds, releases all of them whichever requests for memory fail, takes at most 2n bytes and a logarithmic number of them beside text and suffix array, and a failed sort is noticed by its caller.", "quantifier": "all texts and alphabets, all sizes of the memory behind the suffix array, all patterns of failing requests", "why_tests_cant": "Which arrays lie on the heap depends on the number of names on each level, and each of the requests may fail; tests run with enough memory and see neither a leak nor a peak.", "anchors": ["bwtransforms/sais.hxx:408-431", "bwtransforms/sais.hxx:504-622", "bwtransforms/sais.hxx:805-830", "bwtransforms/SA-IS-bwt.cpp:47-54", "bwtransforms/BWTransform.cpp:52-64"]}
{"id": "C73", "title": "A block that divsufsort had no memory to sort is not taken for a sorted one", "statement": "Whichever of the requests for memory in divbwtf fail, the three arrays are released, and a block that is returned as transformed can be transformed back.", "quantifier": "all blocks, starting points, surroundings, and patterns of failing requests", "why_tests_cant": "Tests run with enough memory; a failed malloc only shows in a return value, and the wrong block is written without any error.", "anchors": ["bwtransforms/divsufsort.c:481-521", "bwtransforms/Divsufsorter.hpp:60-65", "bwtransforms/BWTransform.cpp:52-64"]}
{"id": "C74", "title": "Output that does not fit on the disk is not lost silently", "statement": "A program that ends normally has stored everything it has written: no output is lost when the disk is full.", "quantifier": "all sequences of calls on the output stream, all buffer sizes, all amounts of room on the disk", "why_tests_cant": "Tests run with enough room; the results of fwrite, fputc, fflush and fclose are never looked at, and what is left depends on buffer, positions and the length fields patched later.", "anchors": ["Streams.cpp:63-117", "HuffmanCoders.cpp:259-276", "WaveletCoders.cpp:161-178", "compress.cpp:191-206"]}
{"id": "C75", "title": "The programs do not destroy the file they read", "statement": "When the compressor ends normally, decompressing the file it has written gives the content that the input file had; no other file is changed, and no file at all if one of the two cannot be opened.", "quantifier": "all file systems, all pairs of names, all contents, options, and patterns of files that cannot be opened", "why_tests_cant": "Tests use two different files; that the output is opened, and cut, before anything is read only shows when both names denote the same file.", "anchors": ["Streams.cpp:43-61", "Streams.cpp:128-148", "Compressor.cpp:37-42", "Compressor.hpp:111-112", "Decompressor.cpp:38-40", "compress.cpp:191-194", "uncompress.cpp:98-99"]}
{"id": "C76", "title": "Input that arrives in pieces is compressed completely", "statement": "However much each call of fread delivers, the compressor reads every byte that the input delivers once and in order, and the blocks do not depend on the pieces or the size of the buffer.", "quantifier": "all ways of cutting the input into deliveries, including failing ones, all sizes of buffer and blocks", "why_tests_cant": "Files and fast pipes always fill the buffer; short reads and errors at the border of two blocks depend on timing and devices.", "anchors": ["Streams.cpp:156-175", "PrecompressorBlock.cpp:41-49", "Compressor.cpp:87-93"]}
{"id": "C77", "title": "The memory of the decompressor is in proportion to its data", "statement": "What the decompressor holds in its arrays is in proportion to what it reads and writes, and is all released when it ends.", "quantifier": "all files, damaged ones included, all letters of coders, all inputs and memory limits for the files that the compressor wrote", "why_tests_cant": "A test sees the peak of single files; the bound is for every file and every point of the execution, and the huge requests come from damaged size fields nobody has in a test corpus.", "anchors": ["Decompressor.cpp:58-90", "PrecompressorBlock.cpp:37-39", "PrecompressorBlock.cpp:103-112", "HuffmanCoders.cpp:345-353", "HuffmanCoders.cpp:614-615", "MtlSaInverseBWT.cpp:55-63", "MtlSaInverseBWT.cpp:267", "MtlSaInverseBWT.cpp:361"]}
{"id": "C78", "title": "The replacements of the postprocessor are in proportion to its data", "statement": "What the postprocessor holds for each variable of a grammar is in proportion to the grammar and data it reads and the text it writes.", "quantifier": "all grammars that can be read, all data, all variables", "why_tests_cant": "A test sees single grammars, and those of the compressor; the bound is for every grammar that is read, whatever the number and the nesting of its rules.", "anchors": ["preprocessors/Postprocessor.cpp:62-94", "preprocessors/Postprocessor.cpp:98-132", "preprocessors/Grammar.cpp:202-308"]}
{"id": "C79", "title": "Every rule of the preprocessor is used", "statement": "Every variable of a grammar that the preprocessor makes is a symbol of the preprocessed text or of the right side of a later rule.", "quantifier": "all texts, all numbers of rounds, all orders of equally frequent symbols", "why_tests_cant": "A pair is chosen by a count made before the text is rewritten; that no choice of other pairs can take away all its places is a claim about all texts.", "anchors": ["preprocessors/PairReplacer.cpp:53-63", "preprocessors/PairReplacer.cpp:96-273", "preprocessors/PairReplacer.cpp:320-400", "preprocessors/PairReplacer.cpp:403-477", "preprocessors/Precompressor.cpp:62-121"]}
