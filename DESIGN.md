# Formal model of bwtc: design

The project is a block-sorting compressor: optional pair-replacement
preprocessing, Burrows-Wheeler transform, then an entropy coder (Huffman on
runs, or an arithmetic-coded wavelet tree).  The code is read as text; nothing
is compiled or executed.  Every theorem below is about the Lean model in
`lean/Verif/`.

## 1. Trusted base

* Lean 4.33.0's kernel.
* Axioms: every property theorem is expected to depend on at most `propext`,
  `Classical.choice` and `Quot.sound` (checked with `#print axioms`).  No own
  axioms, no `sorry`, no `native_decide`, no `bv_decide`.
* The reading of the C++ source.  Each definition carries a comment with the
  file and lines it models and the simplifications made.
* Modelling conventions (section 2).

## 2. Modelling conventions

* Bytes are `UInt8`, bits are `Bool`, other machine integers are `Nat` with
  the wrap-around or the shift made explicit whenever the C++ value could
  leave its type.  Where the C++ operation is undefined (shift too large, read
  outside an array, dereferencing `end()`), the model returns `none`/an
  explicit error outcome; theorems then show `some` under stated preconditions,
  or exhibit an input giving the error.
* `std::vector`, C arrays and byte pointers are `List`s (or functions); a
  mutation returns the new value.
* A decoder is a function from the rest of the stream to
  `Option (value × rest)`.  `none` means that it would read past the end of the
  data.  (The real stream then delivers 0xFF bytes; the round-trip theorems show
  this never happens on encoder output.)
* `while`-loops become structural recursion, or recursion with a measure; when
  the C++ loop can diverge the model uses fuel or an `Option` and says so.
* `assert` is compiled out in release builds (CMakeLists.txt adds `-DNDEBUG`),
  so an assertion is never used as a reason to exclude a case: it is either
  proved or becomes a visible hypothesis.
* I/O: files are byte lists; `fwrite`/`fread`/`fseek`/`ftell` are modelled by
  their contract on a byte list with a position.  Disk-full and other I/O
  errors are not modelled.
* Floating point: the products `memLimit*0.74` and `memLimit*0.185` are
  modelled with exact rounding to 53 bits (`Container.round53`).  The log2
  estimates used to choose code parameters are not: the outcome of their
  comparisons is an arbitrary parameter of the model, so theorems hold for all
  values.

## 3. Plan per property

| id  | model / method |
|-----|----------------|
| C01 | `Varint`: 7-bit groups, induction on the number of groups; three readers. |
| C02 | `Varint`: `packAndWriteInteger` writes no byte for 0: negation with witness, `_partial` for n > 0. |
| C03 | `RangeCoder`: 32-bit arithmetic on `Nat` with bounds; `Split` inequalities. |
| C04 | `RangeCoder`: invariant low <= next <= high relating encoder and decoder; induction on the bit list; generic adaptive model. |
| C05 | `ProbModels`: invariants by induction over histories. |
| C06 | `ProbModels`: out-of-bounds access as an explicit outcome; witness after eight ones; partial for histories without w consecutive ones. |
| C07 | `ProbModels`: reset gives the initial state for FSM/Unbiased/EvenInterval; negation for FSM8 with witness. |
| C08 | `Streams`: refinement to (byte list, position). |
| C09 | `Streams`: refinement to a bit list. |
| C10 | `Streams`: corollary. |
| C11-C13 | `BitCodes`: parser round-trips; C13 by strong induction on the number of elements. |
| C14 | `BlockHeader`: 31-bit fields with padding. |
| C15 | `Slicing`: induction on remaining length. |
| C16 | `Runs`: loop model with the do/while quirk; equality with a specification of maximal runs. |
| C17 | `HuffTree`, `HuffLengths`: Moffat-Katajainen three phases modelled on an array; Kraft sum invariant. |
| C18 | `HuffOpt`: optimality (two-queue merging equals Huffman's algorithm, exchange argument). |
| C19 | `HuffCodes`: canonical codes; induction over levels. |
| C20 | `HuffShape`: composition of C01, C11, C13 parsers. |
| C21 | `BitBuffer`: 64-bit bit buffer of the gamma writer; Elias gamma round-trip. |
| C22 | `HuffBlock`: composition of C16, C17, C19, C20, C21, C23, C42. |
| C23 | `Sections`: fold over the count table. |
| C24 | `WaveTree`, `WaveMake`: tree as a map from paths to nodes with bit vectors; `WaveWords`, `WaveHeap`: prefix-free words of runs, the pushed tree as a closed form; `WaveRead`: the walk with ranks. |
| C25 | `WaveBF`: breadth-first coder as an item list, decoder as a program asking for bits. `WaveFeed` (loops, gap flags), `WaveQueue`/`WaveLock` (inner nodes), `WaveInts` (run-length nodes), `WaveWhole` (root, whole tree): decoder fed with the encoder's items rebuilds the tree, for arbitrary models; transferred to the range coder by C04's invariant.  |
| C26, C27 | `WaveCode`, `WaveTrees`, `WaveParams`, `WaveShape`, `WaveChoice`: parameter search with the floating-point comparison as an arbitrary predicate, code trees from lengths, parser round-trip. `WaveTrap`: for run lengths occurring fewer than ten times each, the exact set of distributions on which the search is undefined. |
| C28 | `WaveCode`, `WaveTrees`, `WaveWords`: parser round-trip. |
| C29, C30 | `BWT`: specification of the transform by sorted suffixes, LF and LF-squared arguments; `InvBWT`: array model of `MtlSaInverseBWTransform` (little-endian branch); `InvBWTProof`, `InvBWTWalk`: invariants of its loops. |
| C31 | `FwdBWT`: in-place transform (reverse, sentinel swap, output, starting rows), suffix array from a sort. |
| C32 | `CircBuf`: refinement to a queue. |
| C33 | `FreqTable`: array model. |
| C34 | `GrammarPairs`: arithmetic bijection; `Grammar`, `GrammarExpand`: alphabet expansion. |
| C35 | `GrammarIO`, `GrammarIOParts`, `GrammarIOSpec`: parser round-trip; `GrammarFreed`: invariant that all counts fit into a byte. |
| C36 | `Grammar*`: rules as a term-rewriting table, one round keeps the meaning of the text (`GrammarUpdate`); `PairReplace` (model), `PairWrite`, `PairDecide` (the choice of pairs is sound), `PairRound`, `PairInPlace` (circular buffer), `PairRounds` (whole loop of `Precompressor::precompress`). |
| C37 | `Container`: composition of C01, C35. |
| C38-C40 | `Container` (model of `Compressor::compress`, `Decompressor::decompress`, `PrecompressorBlock`), `ContainerProof`: the entropy coder is an abstract lossless coder, the preprocessor an abstract restorable map; instantiated with C22, C43, C30/C31, C35, C36. `Props.WaveSmall`: every file of at most five bytes passes the wavelet coders (three different run lengths need six bytes); the six-byte file bbbaaa does not. |
| C41 | `Container`: same with the other header variant. |
| C42 | `HuffLookup`, `HuffLookupProof`, `HuffLookupTable`: representation invariant of the decoder state and of the tables. |
| C43 | `WaveBlock`: composition of C01, C23, C24, C25, C26; the states of the three models are threaded through sections and blocks. `Props.WaveSmall`: a section with less than two bytes per run on average passes the search, by counting. `Props.WaveTrap`: exact criterion for blocks whose run lengths are rare. |
| C44 | `Sais`, `SaisSort` (model of sais.hxx), `Suffix` (types of suffixes), `Induce` (induced sorting as a schedule of writes into buckets: every cell is written before it is read), `SaisKey` (LMS substrings as keys), `SaisPlace`, `SaisLms`, `SaisClass`/`SaisLms2`/`SaisSort2` (the two sorting passes are schedules for the order of the keys; marks are ends of classes), `SaisName(s)`, `SaisPost2` (names), `SaisReduce` (the text of the names has the same order, recursion), `SaisSpread`/`SaisInduce`/`SaisLast` (last stage), `SaisBwt` (equality with the transform of `FwdBWT`). |
| C45 | `Divsuf` (model of divsufsort.c), `DivsufSpec` (what sssort and trsort are called for), `DivsufCount`/`Place`/`Stars`/`Sort`/`Ranks`/`Move` (the steps of sort_typeBstar), `DivsufPassB`/`PassA` (construct_BWT as a schedule of writes), `DivsufBwt` (equality with the transform of `FwdBWT`), `DivsufAll` (with C46 and C48 in place of what sssort and trsort have to do). |
| C46 | `Sssort` (model of sssort.c), `SsBase`/`SsInsert`/`SsPart`/`SsHeap`/`SsIntro` (multikey introsort; potential argument for the stack of 16), `SsForward`/`SsBackward`/`SsRotate`/`SsInplace` (merging), `SsSwap`/`SsBoth`/`SsSplit`/`SsMerge` (ss_swapmerge; halving argument for the stack of 32), `SsRoot`, `SsMain`, `SsOk`. |
| C47 | `TrMono`, `DivsufAll`: everything trsort computes with a smaller stack it computes with a larger one; with 85 entries C45 holds for all blocks below 2 GB. |
| C48 | `Trsort` (model of trsort.c), `TrPart`/`TrHeap`/`TrInsert` (partition, heap sort, insertion sort on keys), `TrOrder` (order of suffixes by ranks, tandem repeats), `TrState` (invariant of the rank array and of the stack: groups, depth, what is still to be sorted), `TrSplit`/`TrRaw`/`TrSorted` (one step of tr_introsort on raw and on sorted groups), `TrCopy`/`TrPcopy`/`TrTandem`/`TrRep` (tr_copy, tr_partialcopy), `TrRoom` (room on the stack: (n + 4)^3 <= 2^(cap + 6)), `TrDriver` (tr_introsort, trsort). |
| C49 | `ContainerSort`: the container of `Container` with the transform as a parameter; `transformOf` chooses SA-IS or divsufsort as giveTransformer does. Block sizes reached from a memory limit are bounded (also that preprocessing lengthens no block by more than one byte), so that C44 and C45 apply to every block. |
| C50 | `PairGain` (what `findReplaceables` guarantees about counts: the pairs taken do not overlap except `aa` with itself, their counts exceed the frequencies of the symbols given up by the utility, and the utility is above 1000), `PairTally` (counting by `analyseData` against the greedy replacing of the writer: they differ by at most one per maximal run of odd length from 3 on; exact length of the text written), `PairFit` (bound on length and escapes of a round; calm texts, `CalmRounds`), `PairOverrun` (a text that grows, for every order of equal frequencies; a larger array does not change what the in-place writer does, so it must leave the smaller one). |
| C51 | `PairTotal`: the three loops of `findReplaceables` never leave the table or the list (the symbols of every pair taken lie behind the symbols given up, because a pair is not counted more often than its symbols occur); at least 16 symbols are left because `(S-1)^2 + 2` special pairs are in use with `S` special symbols and each round adds at most 256; so `round` is total. Rounds on calm texts are total including the writers, which gives `C36_calm_defined_partial`, `C38_calm_partial` and, with conditions on the text alone, `C36_one_round_partial`, `C38_one_round_partial`, `C41_one_round_partial`. |
| C52 | `HuffSize`: at most eight bits per run by C18 against the fixed code, one bit per byte for the gamma codes of the run lengths, a shape of at most `259 + 32 m` bytes for longest code `m`, and `fib m` runs for a code of `m` bits; sections have at least 10000 bytes unless there is only one. Lifted to files through `Container`. |
| C53 | `FastInv` (model of `FastInverseBWTransform::doTransform` with wrapping 32-bit arithmetic), `FastInvProof`: the number of milestones up to a row is its rank divided by 2^24, rounded up; so the search restores the upper bits. The output loop follows the LF mapping; that mapping is injective for any data and only the end-of-block row leads to row 0, so the walk from row 0 meets no row twice and ends in the end-of-block row. With C29 the characters met are the block. |
| C54, C55 | `Repro`: the transform of a slice does not depend on the bytes around it, so `encodeSlices` gives the same result for any memory before and behind the slices; induction over the blocks. For C55 in addition the bound on the rounds is irrelevant and the Huffman coder has no state. |
| C56 | `WaveSound`, `Sound`: the model calls that are defined keep the table entries of the Markov models between -2 and 2, so every probability handed to the range coder is legal; the lock-step of C25 then needs only that the encoder succeeded. Induction over sections, slices and blocks as for C38, from success instead of totality. |
| C57 | `Local`: every reader is shown to be determined by the bits it consumes (`Loc`: with any other rest of the same length modulo 8 it reads the same), by a small set of combinators for sequencing, tests and alignment; the last eight bits the decompressor reads are the zero byte of the end marker, which the 0xff bytes behind the end of the data cannot supply. `container_cut`: without its last byte a written file is not read to an end. |
| C58 | `Main`: the four validators, defaults and the flow of `main` behind boost's parser (not modelled), calling `compressWith` of C49. `Documented` says independently what the help text offers. Proved through C49 (sorters agree) and C56 (written files are restored); a memory option of 2^58 wraps to a limit of zero (`C58_huge_mem_loses_data`). |
| C59 | `SizeField`: a written file with another number in the size field of its first block, read by the lemmas behind C56. `Overruns` says, without the decompressor's own test, that the first slice decodes to more bytes than the `size + 1` allocated. False of the code for every file of three bytes or more; exact description of what each size does (`C59_size_field_is_trusted`). |
| C60 | `Predictors`: the predictors not selectable by an option, with 16-bit overflow as `none` and the loop of the biased predictor with a bound shown sufficient. Safety invariants as in C05; for the aggressive predictor: above one half, probability + step = 2048 + a power of two. The counting predictor's legality is characterised exactly (`C60_counting_exact`). |
| C61 | `MinHeap`: `insert`, `heapify`, `deleteMin` on a list of pairs, accesses as `none`. Heap order by the usual invariant with one exceptional cell; contents by permutation. Specification `QueueRun`: a relation on the bag of pairs held. |
| C62 | `MinHeap.createHuffmanShape`; `HeapTree` shows that the heap carries out the greedy construction of `HuffTree` (children exchanged), so `greedy_optimal` and Kraft's inequality apply. |
| C63 | `CoderSize` on the coder model of C03/C04. The number `N` of values in the interval is multiplied by `256^k` when `k` bytes are emitted; choosing a part leaves at least `((N-2)q+2048)/4096` values. With `N` as the measure one bit is lost per step; with `N + 6142` none is lost, and a byte gains at least four bits, because one or two bytes are only emitted from intervals of more than `2^16` or `2^8` values. |
| C64 | `Tools`: `preprocessMain` (options, defaults, product with 1024 in 64 bits) around the `preprocessTool` of C41. The file is described block by block (`Written`), reading it by induction over the blocks; locality of the reader as in C57, from the locality of `readVar`, `readGrammar`, `readBytes`. |
| C65 | `Dmc`: `dmcRound` (one update without the replay), `dmcUpdate` with the depth of the recursion as fuel. Invariant: indices inside the vector, at most `M` states, predictors fine; a replay of fewer than `M` bits cannot use the states up. False in general: `endless` shows that the recursion does not end if the replayed bits use up the states themselves, and a witness of 13 bits satisfies the compile-time conditions. |
| C66 | `DivsufSA` (model of construct_SA and divsufsort), `DivsufSAPass` (the two passes as schedules of writes, with the cell contents `midS` between them), `DivsufSAAll`; sort_typeBstar, sssort and trsort from C45, C46, C48. No condition on the end of the text, unlike C45. |
| C67 | `HuTucker`: the vector of pointers as a list of optional trees, null and out-of-range accesses as a failure. False in general: two theorems over all frequencies show where a symbol is lost and where a null pointer is followed. `HuTuckerAll`: for all inputs an invariant of both passes (names = symbols of the vector + lost symbols) gives a prefix code for the names that are kept; for steeply decreasing frequencies the second pass is followed exactly and keeps all. |
| C68 | `WaveNodes`: the nodes as cells of a heap, with null and deleted cells as a failure; constructors, `readShape`, `pushRun`, `decodeTreeBF` and the destructor on pointers. `assign_refines` shows that the pointers lead to the trees of `Wave.buildTree`; the invariant `Inv` says that every new cell belongs to exactly one of the two trees and is kept by everything that adds a node; `destroy_spec` says that exactly the nodes of a tree die. In the decoder the bits of a node are replaced by any number of ones. False for the decoder: one leaked node per tree, a null pointer when no shape was read, and a null pointer for ones in the root of a tree with a single symbol. |
| C69 | `Pipe`: `RawOutStream` on a stream without positions, and the coders writing to it. `run_all` shows that the stream is append-only, `blocks_piped` and `block_through_pipe` follow the misplaced length fields through the container. False: on a pipe only the first block of the input comes back, without an error. With preprocessing the same is shown for first blocks of one slice. |
| C70 | `SmallUtils`: the bit tricks on `BitVec 32`, the string loop and the reader with positions; `Spreads` says what a smeared word is, `HighestPower` and `a ++ c = b` are the specifications. |
| C71 | `Memory`: the events `take`/`give` of every array whose size depends on the input (block, temporary array, circular buffer, suffix array and its buckets, run arrays), in the order of the code; `InUse` is the specification. `MemoryProof` bounds every prefix of the log by induction over rounds, slices and blocks. False of the code for the Huffman coder and for limits of up to 3 MB. `SaisMemory`: the same log with the arrays of SA-IS (`--bwt s`), whose heap is followed by `sortHeap` of C72; the requests of one sort are counted as one array of their peak. |
| C72 | `SaisHeap`: the pointers `Cp`, `Bp`, `D` of all levels on a heap whose requests may fail; `subproblem` takes the recursive calls from the model of C44 (`C72_same_calls`). `Owned` says which pointers hold which arrays, `Step` collects requests and peak; induction over the recursion; `SaisHeapGrow`: the peak never goes back, so what one level holds bounds it from below (`C72_least`). False: a leak in line 530, and callers that do not notice the failure. |
| C73 | `DivsufHeap`: `divbwtf` with its three arrays on the heap of C72, and `doTransform` around it. If all requests succeed the result is that of C45; otherwise `C73_silent` computes the block for all inputs. False: the failure is not noticed. |
| C74 | `Disk`: the output stream on a device with room for `cap` bytes; `written` is all a sequence of calls writes. The stream simulates a stream with room (`Cut`, `Rel`): its file is the first `cap` bytes, its position and the marked position are cut off at `cap`. False: nothing reports the loss. |
| C75 | `Files`: a file system as a function from names to contents; opening the input, then the output with mode `w`, then `compress`, `decompress` or one of the two tools on what the input then holds. Case analysis, with C56 and C41 for the content. False if the two names denote the same file. |
| C76 | `Pieces`: `fread` takes its results from a list of pieces; `fetchByte`, `readBlock` and the reading loop of `compress`. `rest` is what is still to come; induction over block and loop. False: an empty delivery between two blocks ends the loop. |
| C77 | `DecMemory`: the events of `decompress` as a function of the file, up to its end or undefined behaviour: block, runs of the Huffman decoder, arrays of the inverse transform. The log of a file that is decompressed is a list of blocks (`loopLog_ok`), for written files with the sizes of the blocks and slices of the compressor (`blocks_log`, as `blocks_read`); bounds with `AtMost` of C71. False: the size field alone decides the first allocation. `headerRequests` has the vector of slices, with the size of an entry as a parameter. |
| C78 | `postTable` of `Grammar`, the table that the constructor of the postprocessor fills, and `readGrammar`. The table after n doubling rules by induction on n (`twice_fold`); a bound for every grammar by induction over the rules (`GrammarSize`); for well-formed grammars without unused variables a bound by the text (`used_size`, from the last rule to the first), and such grammars are kept by rounds of the replacer (`GrammarUsed`: a symbol is copied or becomes part of a new rule) and come out of whole runs of the preprocessor (`GrammarUsedRound`: a chosen pair was counted, so it is adjacent somewhere, and pairs do not overlap, so it is replaced there or just before). False: every rule is expanded, used or not. |
| C79 | `symbols`: the text as the postprocessor splits it, a separate specification. `choose_counted`: a chosen pair was counted more than 1003 times, so its bytes are adjacent (`tally_pos`); `writeGo_adjacent`: the writer replaces it there, or has replaced it just before, because chosen pairs do not overlap (`ApartFn`, C50). Old variables are copied or become part of a new rule (`enc_keeps`). Over rounds as in C36 (`rounds_used`). |

Properties expected to be false of the code as written (to be proved as
negations with a witness, together with the part that does hold): C02 (zero),
C05 (some Markov models), C06 (all-ones history), C07 (FSM8 keeps its state),
C20 (longest code length 128 or more), C21 and C22 (runs of 2^29 bytes or more),
C26/C27 (integer-code parameter search), C33 (read behind the frequency array),
C36 (see below), C38 (the file "bbbaaa" with default options, through C27),
C39 (degenerate memory limits), C41 (through C36), C42 (code lengths above 50),
C43 (blocks whose run lengths are all equally frequent, such as "abbccc", see C27;
with the Markov models every section whose root bits start with 0, so C38 fails
for the file "ab" with the coders m and M, `Props/Markov`),
C50 (runs of three equal bytes).

Found for C39 while modelling `Compressor::compress`: limits of at most 5 bytes
give blocks of size 0, the loop ends at once and the file is stored as empty;
the option is multiplied by 1000000 on 64 bits, so 2^58 wraps to 0; with
preprocessing some small limits give slices of size 0 and `sliceIntoBlocks`
never ends.  The assertion of `sliceIntoBlocks` excludes block sizes that
`compress` itself clamps to (0x7ffffffe), visible only in debug builds.

Found for C36 while modelling `PairReplacer::writeReplacedVersion` and
`Precompressor::precompress`: a block of one byte is read out of bounds; blocks
of two to four bytes lose their last byte in the in-place version (proved for
two); if the last byte is escaped and the circular buffer is one byte short of
full, a byte is overwritten (proved on a concrete table); runs of three equal
bytes are counted as two pairs, so the estimated gain can be too high and the
output can exceed the allocation (C50); rounds after the first remove
keys from the frequency table, which reads behind its array (C33; a parameter
of the model).

## 4. What is not modelled

* Command-line parsing (Boost), logging, profiling.
* `divbwt` (the same as `divbwtf` without the counts; not called).  `int` is unbounded in the models of both suffix sorters;
  values in the arrays lie in [-n, n], the budget counters of trsort are not
  bounded by a theorem.
* Whether the stack of 64 entries of `tr_introsort` is enough for groups of
  more than 10568979 suffixes is open: the proof charges up to three entries to
  each halving of a group.  C47 says what holds without an answer.
* The big-endian branch of `MtlSaInverseBWTransform`, and `maxBlockSize` of
  both inverse transforms (never called).
* Memory allocation failure (except in SA-IS, C72, and divsufsort, C73; the sizes asked for are in C71 and C77), I/O errors (except a full
  disk, C74, and failing reads of the compressor, C76), threads (the program is
  single-threaded; `threads != 1` returns immediately).
