{"id": "C01", "title": "Append-optimised file behaves as a plain byte file", "statement": "A file wrapped by the append-optimised writer is observationally a plain random-access byte file: after any sequence of WriteAt (of non-empty data; inside the file, exactly at the end, or past the end), ReadAt, Sync and Size calls, every ReadAt returns what a plain unbuffered file would return, Size is the plain file's size, and after Close the bytes on disk are the plain file's bytes. No buffered byte is lost, duplicated or reordered.", "quantifier": "every initial file content and every finite sequence of WriteAt/ReadAt/Sync/Size/Close operations with arbitrary offsets and data", "why_tests_cant": "The append buffer is an optimisation whose correctness depends on the order of operations; a test exercises a few orders out of infinitely many, and the failure mode (a write at the old end while appends are buffered) needs specific interleavings.", "anchors": ["memfile/appendoptimized.go: appendOptimizedFile.ReadAt, WriteAt, flush, Sync, Close, Size", "memfile/filewithsize.go"]}
{"id": "C02", "title": "Word file returns the last value written at each offset", "statement": "In a word file of word size w (1..8 bytes), after any history of WriteWordAt calls whose values fit in w bytes, ReadWordAt(i) returns the value most recently written at i (0 for a never-written slot below the count), CountWords is one more than the highest offset written (or the initial count if larger), reads past the end fail, and no write changes any other word.", "quantifier": "every word size 1..8, every sequence of writes/appends with values in [0, 256^w), every offset", "why_tests_cant": "The words share one scratch buffer and adjacent byte ranges, so correctness is a statement about all overlaps and all histories, not a sample.", "anchors": ["wordfile/wordfile.go: WordFile.ReadWordAt, WriteWordAt, CountWords"]}
{"id": "C03", "title": "Reading one word does not depend on values written elsewhere", "statement": "For every int64 value handed to WriteWordAt at offset j, a later ReadWordAt(i) with i different from j still returns the value stored at i. (The code breaks this for values that do not fit in the word size: the high bytes stay in the shared scratch buffer and leak into every later read. It holds when every value fits.)", "quantifier": "every word size 1..8, every pair of offsets, every int64 value including negative and oversized ones", "why_tests_cant": "The leak needs an oversized write followed by a read of a different word; tests write values that fit.", "anchors": ["wordfile/wordfile.go: WordFile.scratch8/scratch, ReadWordAt, WriteWordAt"]}
{"id": "C04", "title": "Memory-shadowed word file agrees with the plain word file", "statement": "A word file with an in-memory shadow returns, for every in-range read after any history of fitting writes and appends, the same value and the same count as the plain word file would, and its backing file holds the same bytes.", "quantifier": "every word size, every write/append/read history", "why_tests_cant": "Divergence between cache and file only shows after particular histories (writes beyond the end, gaps).", "anchors": ["wordfile/memshadowedwordfile.go", "wordfile/wordfile.go"]}
{"id": "C05", "title": "Hash file stores 32-byte hashes independently", "statement": "After any history of writes and appends of 32-byte hashes to a hash file, reading hash i gives the hash last written at i, and the count is one more than the highest index written.", "quantifier": "every sequence of AppendHash/WriteHashAt/ReadHashAt and every index", "why_tests_cant": "A statement over all histories; a boundary slip (e.g. 31 bytes) only shows at particular neighbours.", "anchors": ["wordfile/hashfile.go: HashFile.ReadHashAt, WriteHashAt, AppendHash, CountHashes"]}
{"id": "C06", "title": "Reopening a word file restores its count and refuses ragged files", "statement": "Opening a word file whose byte length is a multiple of the word size yields exactly length/w words with the stored values; if the length is not a multiple of the word size opening fails. Closing and reopening a word file preserves every word and the count.", "quantifier": "every file content and every word size 1..8", "why_tests_cant": "Must hold for every crash-truncated length, not the lengths a test happens to produce.", "anchors": ["wordfile/concretewordfilecreator.go: OpenWordFile, countWords, CreateWordFileFilledZeros"]}
{"id": "C07", "title": "Variable-length integers round-trip and are self-delimiting", "statement": "Writing a non-negative integer in the variable-length encoding and reading it back from a stream returns the same integer and consumes exactly the bytes written, whatever bytes follow; hence a concatenation of encodings decodes uniquely.", "quantifier": "every integer in [0, 2^63) and every following byte stream", "why_tests_cant": "Boundary values at 0xFD, 0x10000, 0x100000000 and arbitrary suffixes; tests sample.", "anchors": ["intarrayarray/varint.go: VarInt.WriteToFile, ReadFromFile", "intrinsicobjects/binaryblock.go: ReadCompactSize"]}
{"id": "C08", "title": "An array-of-arrays file round-trips", "statement": "Saving an array of integer arrays to a file and loading it yields the same arrays in the same order, for every count and every content whose elements fit the element byte size; the element tally is the total number of elements.", "quantifier": "every array-of-arrays with elements below 256^elementByteSize and every element byte size 1..8", "why_tests_cant": "Length prefixes of different widths and adjacent arrays interact; only a proof covers all shapes.", "anchors": ["intarrayarray/intarrayarray.go: SaveFile, LoadFile, AppendToArray, GetArray"]}
{"id": "C09", "title": "Array map store keeps every appended element in order", "statement": "For every history of appends to numbered arrays, flushes and reads in the numbered-folder array store, reading array k returns exactly the elements appended to k, in append order, regardless of how appends to other arrays (same file, later file, earlier file) are interleaved, and no call fails. (The code violates this when the first array used in some folder sorts before arrays already used: that folder is never created, so the next flush fails. It holds when folders are first used in increasing order.)", "quantifier": "every interleaving of AppendToArray(k, v), GetArray(k), FlushFile over arbitrary k, v and every digits-per-file setting >= 1", "why_tests_cant": "The two caches (latest/older file) make behaviour depend on the access history; loss happens only on specific orders.", "anchors": ["intarrayarray/intarraymapstore.go: AppendToArray, GetArray, FlushFile"]}
{"id": "C10", "title": "Caching array store keeps every appended element and its memory bound bookkeeping", "statement": "For every history of appends, reads and flushes, every call of the multi-file caching array store returns, reading array k gives exactly the elements appended to k in order, whatever files were evicted in between; and its element tally equals the elements actually held. (Violated by the code: the tally only ever overestimates, since the loaded entry is a copy; and once the tally reaches the limit an append to another file can loop forever.)", "quantifier": "every history of operations and every cache limit", "why_tests_cant": "Eviction order depends on history and map iteration order; tests use a limit that never evicts.", "anchors": ["intarrayarray/cachedintarraymapstore.go: loadIntoCache, AppendToArray, trimCache, FlushFile"]}
{"id": "C11", "title": "Numbered folders never put two arrays in conflicting files", "statement": "Mapping a number to (folder, file, file number) is consistent: two numbers map to the same path exactly when they agree after dropping the low file digits, so numbers in different ranges never collide, and the returned file number is the number with its low file digits zeroed.", "quantifier": "every pair of non-negative integers and every positive number of digits per file and per folder", "why_tests_cant": "Collisions would occur at widths (leading zeros, varying number lengths) that tests do not reach.", "anchors": ["numberedfolders/numberedfolders.go: NumberToFoldersAndFile"]}
{"id": "C12", "title": "Sequencer emits every item exactly once, in order", "statement": "Whatever order numbered items arrive at the sequencer, the output is always a prefix of the items in sequence-number order, each item emitted once; when all items of a contiguous range have arrived and the input is closed, all have been emitted and the output closes without panic. Closing with a missing number panics rather than emitting out of order.", "quantifier": "every permutation of arrivals and every interleaving prefix of the run", "why_tests_cant": "The number of arrival orders is factorial; scheduling decides.", "anchors": ["concurrency/sequencercontainer.go: SequencerContainer.worker, sendNextOut"]}
{"id": "C13", "title": "Sequencer back-pressure flag is exactly 'backlog at or above the limit'", "statement": "At every quiescent point of the sequencer, the flag that blocks producers is raised exactly when the number of items held back is at least the configured limit; so producers are never blocked while the backlog is below the limit, and the flag is down once everything has been emitted.", "quantifier": "every arrival order and every positive limit", "why_tests_cant": "A missed transition would dead-lock only on schedules where the backlog hits exactly the limit.", "anchors": ["concurrency/sequencercontainer.go: worker, sendNextOut, setBloated, WaitForNotBloated"]}
{"id": "C14", "title": "Memory blocker admits only below the limit and loses no wake-up", "statement": "For every number of threads and every interleaving: a call waiting for spare memory returns only at a moment when the heap is below the limit; no waiter returns and no second thread frees while a thread is in its freeing section; and when nobody inside the blocker can move and the heap is below the limit, no waiter is left asleep. (The last part is violated with two or more waiters: one announcement wakes one waiter only, the others sleep on with free memory.)", "quantifier": "every number of threads, every interleaving of their steps, every evolution of the heap size", "why_tests_cant": "Races over a condition variable cannot be enumerated by tests.", "anchors": ["memblocker/memblocker.go: WaitForSpareMemory, StartFreeingMem, MemoryWasFreed"]}
{"id": "C15", "title": "Hash hex strings round-trip and are byte-reversed", "statement": "Converting a 32-byte hash to its hex string and back yields the same hash; the text is the lower-case hex of the reversed bytes; two different hashes never have the same string.", "quantifier": "every 32-byte hash", "why_tests_cant": "2^256 inputs.", "anchors": ["indexedhashes/hexstring.go", "corereader2/utils.go: ToHexHash"]}
{"id": "C16", "title": "Basic hash store: index and hash are inverse", "statement": "After any sequence of appends to the basic hash store, GetHashAtIndex(i) is the i-th appended hash, IndexOfHash(h) is the smallest index holding h or -1 if h was never appended, and CountHashes is the number of appends.", "quantifier": "every append history (with duplicates) and every queried hash", "why_tests_cant": "Absent-hash and duplicate cases over all histories.", "anchors": ["indexedhashes/basichashstore.go"]}
{"id": "C17", "title": "Collision-chained hash store finds exactly the appended hashes", "statement": "In the lookup-file/collision-chunk hash store, after any sequence of appends of distinct hashes (any pattern of partial-hash collisions, any chain length) IndexOfHash(h) returns the index at which h was appended, and -1 for every hash never appended; GetHashAtIndex(i) is the i-th appended hash.", "quantifier": "every sequence of distinct hashes, every partial-hash bit count and every collisions-per-chunk setting allowed by the parameters", "why_tests_cant": "Chains of collisions of every length and shape; random hashes in tests rarely collide more than once.", "anchors": ["indexedhashes/hashstore.go: HashStore.AppendHash, IndexOfHash, GetHashAtIndex"]}
{"id": "C18", "title": "Memory-indexed hash store reopen keeps its content", "statement": "Opening a memory-indexed hash store over an existing hash file answers IndexOfHash and CountHashes for the hashes already in the file. (The code violates this: the map and count start empty on reopen; it holds for a store used within one session.)", "quantifier": "every file content and every later history", "why_tests_cant": "Needs the reopen history; tests keep one session.", "anchors": ["indexedhashes/memoryindexed.go"]}
{"id": "C19", "title": "Tier-zero store: latest-index lookup survives reopen", "statement": "For every append history, with any close/reopen points, the tier-zero store returns the i-th appended hash for every index and finds an index holding h for every appended h (the most recent one), and reports absence for every other hash.", "quantifier": "every append history and every set of reopen points", "why_tests_cant": "All histories with reopen and duplicates.", "anchors": ["weddingcake/tierzero.go: NewTierZero, AppendHash, IndexOfHash, GetHashAtIndex"]}
{"id": "C20", "title": "Bin number is always a valid bin and (bin, sort number, truncated hash) determines the hash", "statement": "With a power-of-two number of bins, every hash is assigned a bin number below the number of bins, and the bin number, sort number and truncated hash together reconstruct the hash exactly; hence two different hashes never share all three. (For even non-power-of-two bin counts the code can assign a bin number equal to the number of bins.)", "quantifier": "every 32-byte hash and every power-of-two bin count from 2 to 2^63; for the negative part every bin count", "why_tests_cant": "The failing hashes are the top few of 2^64; tests never hit them.", "anchors": ["indexedhashes3/params.go", "indexedhashes3/abbreviatedhash.go", "indexedhashes3/truncatedhash.go", "indexedhashes3/hash.go"]}
{"id": "C21", "title": "Bin entry bytes round-trip", "statement": "Encoding (truncated hash, hash index, sort number) into a bin entry and decoding each field gives the same values, for every value that fits the configured widths, and the entry has exactly the configured length.", "quantifier": "every truncated hash, hash index and sort number within width, every widths configuration", "why_tests_cant": "Layout boundary errors appear only for particular widths.", "anchors": ["indexedhashes3/binentrybytes.go", "indexedhashes3/params.go"]}
{"id": "C22", "title": "Bins stay sorted and lookup finds exactly what was inserted", "statement": "For every sequence of insertions into a bin, the bin stays ordered by sort number, contains exactly the inserted entries, and looking up (truncated hash, sort number) returns the hash index of an inserted entry with that key, or 'absent' exactly when there is none.", "quantifier": "every insertion sequence, including equal sort numbers, and every lookup key", "why_tests_cant": "The interpolation search has many boundary cases; equal-key runs break naive binary searches.", "anchors": ["indexedhashes3/binbytes.go: insertBinEntry, lookupByHash, findIndexBasedOnSortNum, homeInOnSortNum"]}
{"id": "C23", "title": "Saving and loading a bin preserves it", "statement": "Writing bins to the bin-starts file (with an overflow file when longer than the fixed room) and loading any bin gives the entries last saved for it, in the same order, and saving one bin leaves the others untouched, for every sequence of saves in which no bin gets shorter. The exception, also proved: the loader cannot represent an all-zero entry at the end of the fixed room; a bin holding only an all-zero entry loads as empty.", "quantifier": "every sequence of saves of bins that never shrink and whose entry at the end of the fixed room is not all zero, every bin number, every room size", "why_tests_cant": "The zero-padding scan and overflow boundary depend on exact lengths.", "anchors": ["indexedhashes3/binfiles.go: loadBinFromFiles, saveBinToFiles, countZeroBytesAtEnd", "indexedhashes3/overflowfiles.go"]}
{"id": "C24", "title": "Binned hash store: appended hashes are found at their index", "statement": "After any sequence of AppendHash calls, IndexOfHash(h) returns an index at which h was appended and -1 if it never was; GetHashAtIndex(i) returns the i-th appended hash; CountHashes counts the appends.", "quantifier": "every append sequence of distinct hashes and every queried hash", "why_tests_cant": "End-to-end over codec, search and overflow for all histories.", "anchors": ["indexedhashes3/hashstore.go: AppendHash, IndexOfHash, GetHashAtIndex, CountHashes"]}
{"id": "C25", "title": "Bulk indexing gives the first occurrence of every hash", "statement": "Indexing a file of (possibly repeated) hashes in bulk, in any number of passes over bin ranges, results for every hash in the smallest index at which it occurs in the file, and 'absent' for every other hash.", "quantifier": "every list of hashes with duplicates and every split of the bins into passes", "why_tests_cant": "Deduplication compares neighbours after a sort; only particular collisions of sort numbers break it.", "anchors": ["indexedhashes3/singlepass.go", "indexedhashes3/multipasspreloader.go", "indexedhashes3/binbytes.go: sortAndDeduplicate"]}
{"id": "C26", "title": "Tree over a set of hashes finds each hash's index", "statement": "The decision tree generated from a set of distinct hashes returns, for every hash in the set, the index presented with it; the tree is generated without panic; and for any other hash the lookup either reports absence or an index whose stored hash agrees with the query on every examined byte and on the reassurance bytes.", "quantifier": "every finite set of distinct equal-length hashes, every reassurance length, and every choice rule for the branching byte that picks a distinguishing unused byte", "why_tests_cant": "All hash sets; the branching byte is picked by floating point entropy so no test fixes the shapes.", "anchors": ["weddingcake/shallowtree.go: GenerateShallowTree, recurseGenerateNode, LookupHash", "weddingcakeback/singletree.go"]}
{"id": "C27", "title": "Node format grouping covers every node and never exceeds its capacity", "statement": "For every tree shape and every permitted number of node formats per level, the chosen format groups give each node a group whose slot capacity is at least the node's slot count, the number of groups does not exceed the limit whenever merging is possible, and merging never loses a slot count.", "quantifier": "every multiset of slot counts per level and every group limit", "why_tests_cant": "The greedy merge loop runs over data-dependent shapes.", "anchors": ["weddingcake/nodeformat.go: ProposeNodeFormatForSlotsCount, RefineNodeFormatGroups, ChooseNodeFormatSpecsForTreeShape"]}
{"id": "C28", "title": "Node ids are unique and locate the node's bytes", "statement": "Within a level, ids allocated to nodes are distinct, consecutive from 1 within their format group, and the byte range computed from an id by the reader is exactly the byte range the writer used for that node.", "quantifier": "every sequence of node allocations over every list of format groups", "why_tests_cant": "Writer and reader compute offsets independently; agreement must hold for every id.", "anchors": ["weddingcake/nodeformat.go: InitializeNodeIdAllocations, AllocateIdAndSpecForNode", "weddingcake/chunklevel.go: ExtractNode", "weddingcake/chunk.go: serializeNodeBytes"]}
{"id": "C29", "title": "Serialized tree lookup agrees with the in-memory tree", "statement": "Looking up any hash in the serialized chunk bytes returns the same answer as looking it up in the in-memory tree the chunk was made from, for all three branching formats and leaves.", "quantifier": "every tree over distinct hashes within the id widths and of at most 64 levels (which is every tree over hashes of up to 63 bytes), every format design, and every queried hash; 65 levels, possible with 64-byte hashes, are shown to panic", "why_tests_cant": "A refinement over all trees and formats.", "anchors": ["weddingcake/chunk.go: serializeIndexBytes, serializeNodeBytes, lookupHash", "weddingcake/chunklevel.go: nextLevelNodeId, detailsIfLeaf, hashByteIndexToExamine"]}
{"id": "C30", "title": "Chunk files give back every chunk appended", "statement": "After appending any list of chunks to the level files and mapping them back, chunk k read back equals chunk k written, and lookups in it find its hashes. (The code violates this for two or more chunks: the chunk counter never advances, so the last chunk is read as the first and the others are empty; it holds for one chunk.)", "quantifier": "every list of chunks and every level layout", "why_tests_cant": "The failure needs at least two chunks; lengths and offsets vary without bound.", "anchors": ["weddingcake/chunkfiles.go: AppendChunk, ReadAndMmap"]}
{"id": "C31", "title": "Fixed-width ids round-trip or are rejected", "statement": "Writing an id in its fixed-width format and reading it back gives the same id whenever the id is within the format's range; in the checked writer an out-of-range id is rejected, never silently changed. (The unchecked writer truncates.)", "quantifier": "every id and every width 16/24/32/40 bits", "why_tests_cant": "All values incl. boundaries.", "anchors": ["weddingcake/types.go", "weddingcakeback/types.go"]}
{"id": "C32", "title": "Top tier: global index conversion is inverse of append order", "statement": "In the top tier with first global index F, the k-th hash appended gets global index F+k, and asking for the hash at global index F+k returns that hash. (The code violates this when F > 0: the offset is applied with the wrong sign.)", "quantifier": "every F, every append history", "why_tests_cant": "Only fails after the first bake, i.e. after 65535 appends.", "anchors": ["weddingcakeback/tiertop.go: TryGetHashAtIndex, AppendHash, TryIndexOfHash", "weddingcakeback/hashidconversions.go"]}
{"id": "C33", "title": "A hash baked alone in its prefix bucket is still found", "statement": "After baking, a lookup by hash in a lower tier finds every hash stored, including one that is the only hash with its prefix. (The code violates this when prefix bytes are skipped at lookup but not in the stored reassurance bytes.)", "quantifier": "every stored set and every prefix length", "why_tests_cant": "Needs a sparse bucket; random test data fills buckets densely.", "anchors": ["weddingcakeback/singletree.go: GenerateSingleTree", "weddingcakeback/tierbelow.go: TryIndexOfHash, recurseLookupHash"]}
{"id": "C34", "title": "Stored blocks partition the transactions in order", "statement": "After appending any chain of blocks, each with at least one transaction, block k read back has the transaction count of the k-th appended block, and its n-th transaction is the n-th transaction appended with that block; every transaction belongs to exactly one block, and asking for the parent block of a transaction returns that block.", "quantifier": "every chain of blocks (any number of transactions each >= 1)", "why_tests_cant": "Ranges are stored as first-index tables, off-by-one at the last block or at block boundaries depends on all sizes.", "anchors": ["chainstorage/concreteappendablechain.go: AppendBlock, appendTransactionFrame", "chainstorage/block.go: TransactionCount, NthTransaction"]}
{"id": "C35", "title": "Stored transactions keep their inputs and outputs in order", "statement": "After appending any chain, transaction t read back has exactly the number of inputs and outputs it was appended with (coinbase inputs excluded), its n-th output has the appended amount and its n-th input refers to the appended source output.", "quantifier": "every chain, including transactions with no inputs and with any number of outputs, at every position including the last", "why_tests_cant": "First-index tables again, with empty ranges and the end-of-file case.", "anchors": ["chainstorage/concreteappendablechain.go: appendTransactionContents, appendTxi, appendTxo", "chainstorage/transaction.go: TxiCount, TxoCount, NthTxi, NthTxo, AllTxoSatoshis"]}
{"id": "C36", "title": "Every input resolves to the output it spends", "statement": "For every chain in which each input refers to an earlier output by (transaction hash, output position), the stored input read back gives the transaction height and position of exactly that output; following it yields the amount that output was created with.", "quantifier": "every chain with distinct transaction hashes and valid references", "why_tests_cant": "Depends on hash indexing plus range tables over whole history.", "anchors": ["chainstorage/concreteappendablechain.go: appendTxi", "chainstorage/transaction.go: Txi.SourceTxo"]}
{"id": "C37", "title": "An address lists exactly its outputs, in order, first output first", "statement": "After appending any chain, reading an address back lists exactly the heights of the outputs paying that address, in increasing order, with nothing missing or extra, given that address numbers are assigned in order of first appearance.", "quantifier": "every chain and every address, including addresses used once, repeatedly in one transaction, or again much later", "why_tests_cant": "'First seen' is inferred from a file length; correctness is an invariant of the whole history.", "anchors": ["chainstorage/concreteappendablechain.go: appendTxo", "chainstorage/address.go"]}
{"id": "C38", "title": "Parallel writing of inputs and outputs is schedule independent", "statement": "While a block is appended, inputs are stored by one goroutine and outputs by another; the stored chain is the same for every interleaving of the two.", "quantifier": "every interleaving of the two goroutines' steps for every transaction list", "why_tests_cant": "Schedules cannot be enumerated by tests.", "anchors": ["chainstorage/concreteappendablechain.go: appendTransactionContents, appendTransactionContentsChi"]}
{"id": "C39", "title": "Two chains can be built in one process", "statement": "Appending blocks to a second, fresh chain store succeeds whatever was appended to another chain store earlier in the same process. (The code violates this: the 'never going backwards' guards are package globals.)", "quantifier": "every pair of chains", "why_tests_cant": "Tests build one chain per process or chains in a lucky order.", "anchors": ["chainstorage/concreteappendablechain.go: PrevTrans, PrevFirstTxo"]}
{"id": "C40", "title": "Navigation visits each block and transaction once, in order", "statement": "Starting from the genesis block and repeatedly asking for the next block visits every stored block exactly once in height order and then reports the invalid handle; the parent of the next block is the block itself. The same holds for transactions.", "quantifier": "every stored chain length", "why_tests_cant": "Termination and completeness for all lengths.", "anchors": ["chainstorage/concretereadablechain.go: GenesisBlock, NextBlock, ParentBlock, NextTransaction, PreviousTransaction, LatestBlock"]}
{"id": "C41", "title": "Binary block parser recovers the serialized block", "statement": "Parsing the standard binary serialization of any block (legacy and segwit transactions mixed, any script and witness lengths) returns the block's header fields, the transactions in order with their inputs (source txid and position) and outputs (amount and script bytes), and consumes exactly the serialized length.", "quantifier": "every well-formed block, with every count below 2^64 and every script/witness content", "why_tests_cant": "Variable-length fields nest arbitrarily; parse drift appears only with unusual lengths.", "anchors": ["intrinsicobjects/binaryblock.go: ParseBinaryBlock, ReadCompactSize", "intrinsicobjects/binarytransaction.go: ParseBinaryTransaction"]}
{"id": "C42", "title": "Transaction id ignores witness data", "statement": "The transaction id computed by the parser is the double hash of the witness-free serialization: two serializations of the same transaction with different witness data, or none, give the same id.", "quantifier": "every transaction and every witness content, for every hash function", "why_tests_cant": "All witness contents.", "anchors": ["intrinsicobjects/binarytransaction.go: ParseBinaryTransaction"]}
{"id": "C43", "title": "Size, stripped size, weight and virtual size are the standard ones", "statement": "For every parsed transaction size is its serialized length, stripped size the length of the witness-free serialization, weight = 3*stripped+size and vsize = weight/4 rounded up; a block's size is its length and its stripped size and weight are header and count plus the sums over its transactions.", "quantifier": "every well-formed block", "why_tests_cant": "Arithmetic over all field lengths.", "anchors": ["intrinsicobjects/binarytransaction.go", "intrinsicobjects/binaryblock.go"]}
{"id": "C44", "title": "Median time is the median of the last eleven block times", "statement": "For every sequence of blocks, the median time reported for block k is the upper median (the element at position n/2 in sorted order) of the times of blocks max(0,k-10)..k.", "quantifier": "every sequence of timestamps of any length", "why_tests_cant": "Sliding window state over unbounded history.", "anchors": ["intrinsicobjectscri/chain.go: PostIntrinsicCalculateMedianTime", "intrinsicobjectschi/chain.go: PostIntrinsicCalculateMedianTime"]}
{"id": "C45", "title": "Block hash streaming yields the chain's hashes in height order", "statement": "Streaming N block hashes from a node whose chain is long enough yields exactly the hashes of blocks 0..N-1 in order, each once, across any number of header batches. (If the chain is shorter than requested the code emits zero hashes instead of stopping.)", "quantifier": "every chain and every N", "why_tests_cant": "Batch boundaries every 1000 blocks; tests stay within one batch and have no node.", "anchors": ["corereader2/blockhashes.go: StreamBlockHashesFromGenesis"]}
{"id": "C46", "title": "Blocks out of sequence are never accepted", "statement": "Both block holders hand out blocks only in a chain: every block delivered after the first has the previously delivered block's hash as its previous hash; the first delivered block's hash starts with the four genesis hash bytes that are checked; no block given is skipped; a next block that does not continue the chain is rejected by a panic; block heights and the transaction heights given to the indexer are consecutive; and a good chain is delivered in full.", "quantifier": "every input stream of blocks", "why_tests_cant": "All malformed streams.", "anchors": ["intrinsicobjectscri/chain.go: OneBlockHolder.GenesisBlock, NextBlock, PostIntrinsicGatherTransHashes"]}
{"id": "C47", "title": "A crash loses only an unsynced tail of appends", "statement": "At any moment, if the process dies without Close, the bytes on disk are a prefix of the bytes the client logically wrote; and immediately after Sync (or any ReadAt) the disk holds every byte written so far.", "quantifier": "every initial content, every sequence of operations, every crash point", "why_tests_cant": "A crash can happen after any operation in any history; a test kills the process at a few chosen points.", "anchors": ["memfile/appendoptimizedfile.go: WriteAt, flush, Sync, Close"]}
{"id": "C48", "title": "Zero-length writes are harmless", "statement": "A WriteAt of zero bytes, at any offset, leaves the size and contents seen by the client unchanged.", "quantifier": "every offset and every history in which zero-length writes are interleaved with other operations", "why_tests_cant": "Whether a zero-length write corrupts the size bookkeeping depends on its offset relative to the current end and shows only later.", "anchors": ["memfile/appendoptimizedfile.go: WriteAt"]}
{"id": "C49", "title": "ReadAll returns the whole file", "statement": "ReadAll on an append-optimised file returns exactly the bytes the client has written so far, whatever happened before.", "quantifier": "every history of operations before ReadAll", "why_tests_cant": "The result depends on the hidden file position left by earlier appends.", "anchors": ["memfile/appendoptimizedfile.go: ReadAll"]}
{"id": "C50", "title": "The producer / worker pool / sequencer pipeline never deadlocks", "statement": "When a producer takes items in order, waits for the sequencer's not-bloated signal before handing each to a pool of workers, and workers deliver results to the sequencer in any order, then for every limit >= 1 and worker count >= 1 the pipeline is never stuck before all items have been emitted, every schedule is finite, and it ends with all items emitted in order.", "quantifier": "every limit, worker count, number of items and schedule", "why_tests_cant": "Deadlock depends on the schedule.", "anchors": ["concurrency/sequencercontainer.go: WaitForNotBloated, worker", "jobs/intrinsicparallel.go:299-330"]}
{"id": "C51", "title": "Hash text that is not 64 hex digits is refused", "statement": "Decoding a hash text succeeds only for 64 hex digits, and then identifies only texts that differ in letter case. (Violated: characters that are not hex digits are silently decoded as zero.)", "quantifier": "every text", "why_tests_cant": "All strings.", "anchors": ["indexedhashes/hexstring.go: HashHexToSha256, asciiToNibble"]}
{"id": "C52", "title": "Tier-zero append on a torn file", "statement": "After a crash that leaves an incomplete last hash in the tier-zero file, reopening and appending stores the appended hashes durably, or fails without claiming them. (Violated: the store opens, each append returns an error, but the refused hash is counted and found in memory until the store is closed.)", "quantifier": "every file whose length is not a multiple of 32 and every appended hash", "why_tests_cant": "Needs a crash point inside a hash write.", "anchors": ["weddingcake/tierzero.go: NewTierZero, AppendHash", "memfile/appendoptimized.go: WriteAt"]}
{"id": "C53", "title": "Adaptive-pass bulk indexing", "statement": "Bulk indexing of a file of hashes with the adaptive-pass preloader puts every bin in exactly one pass, each pass staying below the memory budget unless it is a single bin; whatever the number of threads, the memory budget and the goroutine schedule, the run finishes and the store then finds each hash at its first index in the file and reports other hashes absent.", "quantifier": "all parameter sets, hash files, memory budgets, thread counts, orders of equally sized bins, and all interleavings of the reader, the workers and the collector", "why_tests_cant": "The result depends on the interleaving of the reader with many workers writing into shared carved-up buffers and on how bins are packed into passes; tests run a few schedules on a few files.", "anchors": ["indexedhashes3/adaptivepass.go", "indexedhashes3/adaptivepasspreloader.go"]}
{"id": "C54", "title": "Loading all bins into memory agrees with loading each bin", "statement": "Loading every bin of a binned hash store into memory in one pass over the bin-starts file gives, for each bin number, the same bytes as loading that bin on its own.", "quantifier": "every bin-starts file content with room for all bins, every overflow file content, every parameter set, every bin number", "why_tests_cant": "The in-memory path walks one slice with a running offset while the on-disk path seeks; they agree on small samples even when offsets drift for particular widths.", "anchors": ["indexedhashes3/binfiles.go: loadAllBinsFromFiles, loadBinFromFiles"]}
{"id": "C55", "title": "After bulk indexing every index gives back its hash", "statement": "After indexing a file of hashes in bulk, GetHashAtIndex(i) returns the i-th hash of the file for every index below the count, and an error for every other index.", "quantifier": "every list of hashes, every split into passes, every goroutine schedule", "why_tests_cant": "Only repeated hashes are affected, and the wrong answer is a well-formed hash without an error.", "anchors": ["indexedhashes3/singlepass.go", "indexedhashes3/binbytes.go: sortAndDeduplicate, lookupByIndex", "indexedhashes3/hashstore.go: GetHashAtIndex"]}
{"id": "C56", "title": "Extra per-block and per-transaction integers read back as stored", "statement": "Every non-essential integer given with a block or transaction (time, size, weight, version, ...) is returned when read back for that block or transaction, for every chain, when it is non-negative and fits the field's word (4 bytes, difficulty 8); a value that does not fit reads back as its remainder modulo 256^width, so in particular a negative value in a 4-byte field reads back as a large positive number.", "quantifier": "every chain, every field, every 64-bit value", "why_tests_cant": "All field values at all positions; truncation is silent so only a value-complete statement exposes it.", "anchors": ["chainstorage/concreteappendablechain.go: AppendBlock, appendTransactionContents (non-essential ints)", "chainstorage/block.go: NonEssentialInts", "chainstorage/transaction.go: NonEssentialInts"]}
{"id": "C57", "title": "A prepared chunk finds every hash it was made of", "statement": "Preparing a chunk of distinct hashes succeeds without panic, and looking up any of its hashes in the chunk's bytes returns the global index it was presented with; looking up any other hash returns -1 or the index of a hash agreeing with it on distinguishing bytes and reassurance bytes.", "quantifier": "every list of distinct hashes of up to 63 bytes with indices from any first index on that fit the hash id width, few enough for the node id width; all configurations; in particular all lists of up to 65534 consecutive hashes with two-byte ids", "why_tests_cant": "The path from hashes to bytes goes through entropy choices, format merging, id allocation and three encodings; a wrong offset shows only for particular shapes.", "anchors": ["weddingcake/chunk.go: PrepareAndSerialize, LookupHash", "weddingcake/shallowtree.go", "weddingcake/nodeformat.go", "weddingcake/treeshape.go"]}
{"id": "C58", "title": "Looking up a hash in an opened tier gives the index it was put in under, or nothing", "statement": "After batches of distinct hashes have been baked into the tier without prefix bytes and the tier has been opened, looking up a hash returns the index of its first appearance if it was ever put in, and 'not found' otherwise.", "quantifier": "all configurations with 2 to 4 byte ids and 8 to 63 byte hashes, all numbers of batches and all batches small enough for the id widths, all entropy computations, all queries", "why_tests_cant": "Which bytes are examined depends on the whole batch; a wrong match needs a query that differs only in bytes that happen not to be examined, among 256^32 queries.", "anchors": ["weddingcakeback/tierbelow.go:192-351", "weddingcakeback/donutforestwrite.go:28-265", "weddingcakeback/donutforestread.go"]}
{"id": "C59", "title": "The hash at an index of an opened tier is the hash put in under that index", "statement": "After batches of distinct hashes have been baked into the tier without prefix bytes and the tier has been opened, asking for the hash at an index returns exactly the hash put in under it, and 'not here' for any index before the first or after the last.", "quantifier": "all batches, all indices", "why_tests_cant": "Indices run over several forests and the file of hashes; tests sample a few positions.", "anchors": ["weddingcakeback/tierbelow.go:250-268"]}
{"id": "C60", "title": "The hashes taken out of a tier are exactly those put in", "statement": "Visiting every leaf of an opened tier without prefix bytes, as is done when its content is baked into the next tier, yields every hash that was put in exactly once, with its index, and nothing else.", "quantifier": "all batches, all entropy computations, all node formats that result", "why_tests_cant": "Every node format and every padding of every format must be walked without skipping a child or following padding.", "anchors": ["weddingcakeback/tierbelowsource.go:25-118", "weddingcakeback/donutforestread.go:213-292"]}
{"id": "C61", "title": "A tier that was baked can be opened", "statement": "After baking not more batches than the tier's quota of forests, opening the tier succeeds, whatever the hashes were.", "quantifier": "all batches of distinct hashes, all quotas", "why_tests_cant": "The failure needs a tree of more than ten levels, which random test hashes practically never produce.", "anchors": ["weddingcakeback/tierbelow.go:81-145", "weddingcakeback/tierbelow.go:353-398", "weddingcakeback/donutforestwrite.go:326", "weddingcakeback/donutforestwrite.go:440"]}
{"id": "C62", "title": "Baking a batch panics exactly if it has two equal hashes", "statement": "A batch of hashes of the right length that fits the id widths is baked into a forest without panic if its hashes are all different, and makes the program panic if two of them are equal (the top tier accepts equal hashes).", "quantifier": "all batches, all positions of equal hashes, all entropy computations", "why_tests_cant": "Absence of a panic for every set of distinct hashes cannot be sampled.", "anchors": ["weddingcakeback/bakingdesigner.go:81-96", "weddingcakeback/singletree.go:83-146", "weddingcakeback/tiertop.go:180-216"]}
{"id": "C63", "title": "Hashes baked into a tier with prefix bytes can be found", "statement": "After the hashes of the tier above have been baked into a tier with one or more prefix bytes, looking up each of them in it returns its index.", "quantifier": "all hashes, all prefix byte counts, all entropy computations", "why_tests_cant": "It takes 65535 appends for one batch and five batches before the first tier with a prefix is ever written.", "anchors": ["weddingcakeback/donutforestwrite.go:86-142", "weddingcakeback/donutforestwrite.go:345-428", "weddingcakeback/tierbelow.go:192-248"]}
{"id": "C64", "title": "Appending hashes to a cake numbers them 0, 1, 2, ... and never fails", "statement": "Starting from a new cake, appending hashes one after the other, with the cake closed and reopened at any points in between, returns the indices 0, 1, 2, ... in order; no append, and no reopening, fails or crashes.", "quantifier": "all hash sequences, all placements of closing and reopening, all batch sizes, all entropy computations", "why_tests_cant": "Every 65535th append rewrites files and swaps tiers; a test can visit only few positions of reopenings and few of the batches.", "anchors": ["weddingcakefront/cake.go:27-92", "weddingcakeback/tiertop.go:145-152", "weddingcakeback/tiertop.go:280-337", "weddingcakeback/donutforestwrite.go:200-240"]}
{"id": "C65", "title": "Looking up a hash in a cake gives the index it was appended under, or minus one", "statement": "In a cake reached by any appends and reopenings, looking up a hash that was appended returns the index its append returned, and looking up any other hash returns -1.", "quantifier": "all hashes looked up, all histories of appends and reopenings", "why_tests_cant": "The hash may rest in the file of recent hashes or in any of the baked batches, and the answer depends on which other hashes share its batch.", "anchors": ["weddingcakefront/cake.go:60-75", "weddingcakeback/tiertop.go:180-200", "weddingcakeback/tierbelow.go:192-248"]}
{"id": "C66", "title": "Looking up a hash in a cake never crashes", "statement": "In a cake reached by any appends and reopenings, looking up any 32-byte hash returns an answer; the program does not crash.", "quantifier": "all hashes looked up, all histories of appends and reopenings", "why_tests_cant": "The crash needs two baked batches in a row in one session, that is 131070 appends, followed by the lookup of an absent hash.", "anchors": ["weddingcakeback/tiertop.go:180-200", "weddingcakeback/tierbelow.go:156-190", "weddingcakeback/donutforestwrite.go:200-240", "weddingcakeback/tierbelowsource.go:144-175"]}
{"id": "C67", "title": "The hash at an index of a cake is the one appended under that index", "statement": "In a cake reached by any appends and reopenings, asking for the hash at an index returns the hash whose append returned that index; for an index never returned an error comes back, and the program does not crash.", "quantifier": "all indices including negative ones, all histories of appends and reopenings", "why_tests_cant": "Which tier answers, and with which offset, changes with every baked batch and every reopening.", "anchors": ["weddingcakefront/cake.go:77-92", "weddingcakeback/tiertop.go:202-216", "weddingcakeback/tierbelow.go:249-268"]}
{"id": "C68", "title": "A caller may reuse the array it passed a hash in", "statement": "The caller of append may overwrite the bytes of the slice it passed in as soon as append has returned; later appends behave the same as if every hash had been passed in a slice of its own.", "quantifier": "all hashes, all batch sizes, all later contents of the slice", "why_tests_cant": "The fault appears only when the batch is baked, 65535 appends later, and only for callers which read hashes into one buffer.", "anchors": ["weddingcakeback/tiertop.go:38-72", "weddingcakeback/tiertop.go:280-337"]}
{"id": "C69", "title": "JSON and binary give the same block", "statement": "When the node's JSON description of a block is read, the block structure filled in equals the one filled in from the binary serialization of the same block: header fields, hashes, transaction ids, sizes and weights, segwit flags, amounts, scripts and spent outputs. The one exception is the output number of the input that spends nothing (0 instead of 4294967295), which no consumer reads. Whatever the structure held before makes no difference.", "quantifier": "all well-formed blocks below 2^31 bytes with amounts within the supply, all 32-byte hash functions, all float64 roundings with relative error at most 2^-53, all previous contents", "why_tests_cant": "The project's tests compare the two paths on a few downloaded blocks; a difference in one field shows only for particular transactions.", "anchors": ["intrinsicobjects/jsonblock.go:10-61", "intrinsicobjects/jsontransaction.go:25-84", "intrinsicobjects/binaryblock.go:9-72"]}
{"id": "C70", "title": "Amounts read from JSON are exact to the satoshi", "statement": "An amount the node shows as a decimal number of bitcoins is stored as exactly that number of satoshis, although it passes through floating point twice.", "quantifier": "all amounts up to 21 million bitcoins, all float64 roundings with relative error at most 2^-53", "why_tests_cant": "There are 2.1 * 10^15 amounts.", "anchors": ["intrinsicobjects/jsontransaction.go:11", "intrinsicobjects/jsontransaction.go:63"]}
{"id": "C71", "title": "A fetch retries and is not affected by earlier failures", "statement": "Fetching a block as JSON delivers the first of the node's first three replies that is a block, exactly as if it had been the only reply, and crashes the program exactly if none is; fetching in binary delivers the first reply with a body among the first three.", "quantifier": "all sequences of replies: refused, cut short, not JSON, JSON that is no block, good", "why_tests_cant": "Depends on sequences of network faults and of partly filled structures.", "anchors": ["corereader2/getparseblocksbinary.go:60-113", "intrinsicobjects/jsonblock.go:10-61"]}
{"id": "C72", "title": "The block pipeline delivers every block in order and comes to an end under any scheduling", "statement": "With at least one worker and a node that answers, the goroutines that list, throttle, number, fetch, reorder and forward blocks never all wait for each other, take a bounded number of steps, deliver every block exactly once and in chain order, and tell the consumer 'no more' only after the last block, when no goroutine is left behind. The sequencer's own panic cannot happen: the program crashes only if a block cannot be fetched. With zero workers the consumer is told at once that there are no blocks.", "quantifier": "all lists of block hashes, all fetch results, all limits, all worker counts, all interleavings of the goroutines (no fairness assumed)", "why_tests_cant": "The number of interleavings is astronomical; the source itself records a run stuck at 87% that was never explained.", "anchors": ["jobs/intrinsicparallel.go:288-319", "corereader2/getparseblocksbinary.go:22-121", "concurrency/sequencercontainer.go:35-97"]}
{"id": "C73", "title": "The pipeline holds a bounded number of blocks", "statement": "Between the source of hashes and the consumer there are never more than the sequencer's limit plus the number of workers plus four blocks, and the sequencer never puts aside more than the limit plus the number of workers plus two.", "quantifier": "all positive limits, all worker counts, all interleavings, however long one block takes to fetch", "why_tests_cant": "The worst case needs one very slow block and all others fast, at every possible moment.", "anchors": ["concurrency/sequencercontainer.go:44-51", "concurrency/sequencercontainer.go:64-97", "jobs/intrinsicparallel.go:302-308"]}
{"id": "C74", "title": "The multi-pass index finds every hash at its first position", "statement": "After IndexTheHashes, IndexOfHash gives for every hash the first position at which it is in the hash file, and -1 for hashes not in it, whatever the memory allowed per pass (at least one bin), however many passes that takes, and however many hashes fall into one bin. The number of bins made is the number aimed at (one per 75 hashes of the estimate). It is only partly true: hashes above the last bin are left out without any error and looking one of them up is an error; with the project's estimate of 10^9 these are exactly those whose first eight bytes are at least 2^64 - 11498321. A file that is not a whole number of hashes is refused, and less memory than one bin panics.", "quantifier": "all hash files, all memory grants, all dividers and folder widths, all rounding of floats within half an ulp", "why_tests_cant": "Bins above 102 entries, pass boundaries and the last bin all depend on sizes and hash values no test covers; the lost hashes are about one in 10^12.", "anchors": ["indexedhashes/multipasspreloader.go:60-302", "indexedhashes/uniform.go:50-72", "indexedhashes/uniform.go:245-301"]}
{"id": "C75", "title": "A hash appended to a uniform hash store can be found", "statement": "A hash given to AppendHash is found by IndexOfHash afterwards, and a store just created can be opened and appended to. This is false: after any number of appends every lookup answers exactly as if nothing had been appended (-1 for a new hash), although the hashes are in the file in order and can be read by index; where the overflow folder does not exist AppendHash reports an error after having stored the hash; and a store that was created but not indexed cannot be opened at all.", "quantifier": "all indexed stores, all sequences of appended hashes, all looked-up hashes in range", "why_tests_cant": "The claim is about every sequence of appends after every index; the repository has no test of it.", "anchors": ["indexedhashes/uniform.go:113-178", "indexedhashes/uniform.go:212-301"]}
{"id": "C76", "title": "The self test of a uniform hash store tells sound from unsound stores", "statement": "For an indexed store of a hundred hashes or more, Test answers true exactly if every hash of the file can be looked up, and else gives an error; with no hashes it answers true. It is only partly true: with 1 to 99 hashes Test of a sound store panics with a division by zero.", "quantifier": "all hash files, all memory grants", "why_tests_cant": "It is about every store, and the tool itself is the test.", "anchors": ["indexedhashes/uniform.go:326-372"]}
{"id": "C77", "title": "A whole run stores the chain of the node", "statement": "Let a node hold a chain longer than the number of blocks asked for, give its headers, and give each of those blocks in the standard serialization after at most two failed answers. Then, with any number of workers (at least one), any channel sizes and any schedule, a run of all three phases with delegated indexing ends without error or panic through either interface, and afterwards the read interface gives, for every block: its hash, the height for its hash, the number of its transactions, time, size, stripped size, weight, difficulty and the median of the last eleven times; for every transaction of a block: its height, its block, its hash (as gathered; C79 for the index), size, virtual size and weight, its amounts and the numbers of its inputs and outputs; for every input that is not a coinbase's: the transaction and position it spends, with the height of that output; for every output its amount, its transaction and its address, which lists exactly the outputs with the same script hash. This needs: block hashes differ, blocks under 1 GiB, amounts and counts that fit the files, spent transactions in the stored blocks, and for the first interface different transaction hashes within a block.", "quantifier": "all chains, node answers, worker counts, channel sizes, schedules, both interfaces, any 32-byte hash function", "why_tests_cant": "It ranges over every chain and every interleaving of the goroutines, and joins parser, pipeline, block holder and store, which unit tests exercise apart.", "anchors": ["jobs/intrinsicparallel.go:24-623", "intrinsicobjectscri/chain.go:101-272", "intrinsicobjectschi/chain.go:73-253", "chainstorage/concreteappendablechain.go:66-1017", "corereader2/blockhashes.go:12-91", "corereader2/getparseblocksbinary.go:49-113"]}
{"id": "C78", "title": "A run with a block limit stores the first blocks", "statement": "Suppose phase one has gathered the hashes of n blocks and phase three is limited to the first m of them (0 < m <= n). Then the run ends without error, and for each of the first m blocks the read interface gives the hash, the number of transactions, and of each transaction the height, block, hash, amounts, the numbers of inputs and outputs, each output with its height, amount and transaction, each input with the transaction and position it spends; and the latest block is number m-1.", "quantifier": "all chains, all limits, worker counts, schedules, both interfaces", "why_tests_cant": "The end of the hash stores and the end of the chain files differ here, so every query about 'the last' item depends on which of the two it consults; a test with a full run never sees the difference.", "anchors": ["jobs/intrinsicparallel.go:210-261", "chainstorage/block.go:36-80", "chainstorage/transaction.go:14-154", "chainstorage/concretereadablechain.go:176-200"]}
{"id": "C79", "title": "A whole run with the hash indexes it builds", "statement": "In a run of all three phases as in C77, let phase two index the hash files that phase one has gathered, with the multipass or the adaptive preloader, in any schedule, with any number of threads and any grant with which it completes. Then phase three succeeds, every lookup it makes in the hash stores is answered as by the gathered lists, and afterwards the stores, opened with bins in memory or on disk, give for every block hash the height of the block, for every transaction hash the height of the first transaction with it, for every script hash the number of its address, which is the one stored with the output, and for every height the hash of the block or transaction.", "quantifier": "all chains whose hashes the indexer can tell apart, all schedules of all goroutines, both preloaders, both interfaces", "why_tests_cant": "It joins the fetching pipeline, the bulk indexer and the store, each with its own schedules, over all chains; a chain with a repeated transaction is needed to see the hash that is lost.", "anchors": ["jobs/intrinsicparallel.go:24-261", "indexedhashes3/hashstorecreator.go:22-150", "indexedhashes3/hashstore.go:25-143", "indexedhashes3/multipasspreloader.go:36-90", "indexedhashes3/adaptivepasspreloader.go:31-57", "chainstorage/concreteappendablechainfactory.go:57-100"]}
{"id": "C80", "title": "The in-memory tree over a batch of hashes finds every one of them", "statement": "Put a batch of at most 32768 hashes into the in-memory tree (any tie-breaking in the choice of bytes). It never overflows, and looking up a hash of the batch gives the lowest index it was presented with and whether it was presented more than once. Looking up any other 32 bytes never panics and gives either 'not found' or the right answer for a hash of the batch that agrees with the query in positions which tell it from all others. A batch of 65536 or more always overflows and leaves an empty tree.", "quantifier": "all batches of 32-byte hashes with indices in range, all queries, all entropy functions that are zero exactly on constant columns", "why_tests_cant": "The tree's shape depends on all hashes; the loss of a repeated hash needs neighbours in every byte, and the overflow bound is over the worst batch, not a random one.", "anchors": ["indexedhashestree/shallowtree.go:26-272"]}
{"id": "C81", "title": "The container of nodes as bytes answers as the in-memory tree", "statement": "Give the nodes of the in-memory tree over a batch of 1 to 32768 hashes their formats, sort them by format in any way and write the container. That succeeds, and looking up in the bytes of the container gives for every query the answer of the in-memory tree: every hash of the batch is found with the lowest index it was presented with and whether it was presented more than once, and it is never said that too little is loaded. The answer is the same for every query with the same bytes in the positions reported as examined.", "quantifier": "all batches, all queries, all orders of nodes with equal format", "why_tests_cant": "Formats, node numbers and offsets depend on the whole tree; the failures need a single hash with a zero first byte, or a repeated hash with neighbours in each of its 32 bytes.", "anchors": ["indexedhashestree/multiplefixednodesize.go:31-507"]}
{"id": "C82", "title": "A container with only its first levels loaded gives the same answer or says so", "statement": "The byte slices of the 32 levels of a container are, one after the other, the bytes of the container. With only the bytes of the first k levels loaded, looking up a query either gives the answer of the whole container, or says that too little is loaded, the latter only after at least k bytes of the query have been examined, and only for a hash that is in the batch.", "quantifier": "all batches, all queries, all numbers of levels", "why_tests_cant": "The offsets of the levels depend on which formats occur at which level; levels may be skipped only by formats, not by nodes, for every tree.", "anchors": ["indexedhashestree/multiplefixednodesize.go:203-245", "indexedhashestree/multiplefixednodesize.go:380-428"]}
{"id": "C83", "title": "Sorting hashes into files with two goroutines loses none", "statement": "When the job that sorts the hashes of a file into one index file per address returns, the file of each address lists exactly the hashes with that address, each once, with its number, in order, whatever the scheduling of the goroutine that hands the hashes over and the one that writes the files. It is only partly true: files never hold a wrong, repeated or misplaced record, neither goroutine panics (unless a file cannot be written), the two never wait for each other for ever and the job ends within a bounded number of steps after the last hash; all hashes are filed if no hash is handed over while the list of its address is being written and the consumer stops only after a round begun after the last hash. But nothing at all is written if memory is never short, and hashes are lost in the two races excluded above.", "quantifier": "all lists of 32-byte hashes (fewer than 2^64), all dividers from 2, all round sizes, all interleavings of the two goroutines, all choices made by map iteration, all moments at which memory runs short", "why_tests_cant": "The losses depend on interleavings of a few instructions among a thousand million hashes; the job's names of files and its count of hashes are fixed, so that it cannot be run in a test.", "anchors": ["indexedhashes/jobs.go:13-114", "indexedhashes/preloader.go:53-138", "indexedhashes/preloader.go:142-207", "indexedhashes/preloader.go:246-335"]}
{"id": "C84", "title": "The chain of hashes keeps every hash, in order", "statement": "Phase one of a run makes a chain of hashes, appends the blocks of the source and closes it. Whatever blocks are appended and however often they are counted and synchronized in between, the counts seen are those of the block, transaction and address hashes so far, and afterwards the three files read back as exactly those hashes in the order of the blocks, of the transactions in them and of their outputs; they are the very lists the later phases index. If the machine stops at any moment the files hold a beginning of those lists, and at least what was appended before they were last synchronized. Only partly true: a chain that is opened again reports no hashes, and each hash appended overwrites an old one, from the front.", "quantifier": "all sequences of appended blocks (with transactions, hashes of 32 bytes), counts and synchronizations; all prior contents of the folder; all moments of stopping", "why_tests_cant": "There is no test of the chain of hashes; the cache below it splits writes at 64 kilobytes, and a test would look at one list of blocks in one session.", "anchors": ["chainstorage/concretehasheschain.go:28-207", "chainstorage/concretehasheschainfactory.go:34-123", "jobs/intrinsicparallel.go:277-283"]}
{"id": "C85", "title": "The chained hash store still finds its hashes after being closed and opened again", "statement": "A collision-chained hash store is made once and then used in any number of sessions; in each the lookup table is held in memory or on disk and the hashes file is plain or append-optimized. Every call answers as for the list of all hashes ever appended: appending gives the next index, looking up gives the first index of the hash or 'not there', reading back and counting are right, whatever the choices in this or earlier sessions. It is also so if the program is killed between calls, provided the lookup is not in memory and an append-optimized hashes file has been synchronized. (Killed with the lookup in memory, no hash of the session is found although all are there; killed without Sync, looking up a lost hash is an error.)", "quantifier": "all parameters with entries of 1 to 7 bytes and 2 to 8 collisions per chunk that fit the buffer; all sequences of appends, lookups, reads, counts, syncs, closings, openings and safe kills with fewer hashes than the top bit of an entry; all hashes with any collisions; any memory behind the in-memory buffer", "why_tests_cant": "The test of the store uses one session and one choice of files with a few hashes; the damage appears only after particular orders of collisions, closings and kills.", "anchors": ["indexedhashes/hashstore.go:35-408", "indexedhashes/concretehashstorecreator.go:53-177", "memfile/fixedsize.go:18-49"]}
{"id": "C86", "title": "All ways of opening a word file for reading show the same words", "statement": "Whatever was written to a word file and closed, opening it for reading plainly, with a shadow in memory, or memory-mapped succeeds exactly if the file exists and holds a whole number of words, and then gives the same count and the same words, also while the file is being appended to by others; reading outside the file is reported, and reading the whole file gives all of its words. (A memory-mapped opening fails on an empty file; a creator that holds files in memory can never start one; offsets so large that the product with the word size wraps read a word from the front; the whole file can be read only once per opening, and never if it is memory-mapped.)", "quantifier": "word sizes 1 to 8; all files shorter than 2^63 bytes; all sessions of fitting writes before; all histories of reads, counts, whole-file reads and appends by others; all three ways of opening", "why_tests_cant": "The tests read a handful of words of one small file once through each opening, never twice, never far outside, never while the file grows.", "anchors": ["wordfile/concretewordfilecreator.go:21-139", "wordfile/concretemmapcreator.go:20-108", "wordfile/wordfile.go:33-103", "wordfile/memshadowedwordfile.go:13-34", "memfile/mmapfile.go:20-65", "memfile/filewithsize.go:5-34"]}
{"id": "C87", "title": "The difficulty of a block is the one Bitcoin Core reports, and its stored integer the nearest", "statement": "The difficulty computed from the compact target in a block header is the number Bitcoin Core reports for the block, bit for bit, and its relative error against the true quotient of targets is at most 2^-53; a harder target never gives a smaller one. The integer stored for the block is an int64, within a half and the last float digit of the true difficulty, and the nearest integer for difficulties below 2^28. (It is not always nearest for the difficulties of today; a difficulty of 2^63 or more, or a zero target, is stored as the least integer; compact targets of exponent below 3 or value above 2^1024 give another number than Bitcoin Core.)", "quantifier": "all 32-bit compact targets (all natural numbers, in fact), exact float64 rounding", "why_tests_cant": "The only test has difficulty 1. The rounding error depends on the bits of the mantissa: one compact target in a thousand or so is affected.", "anchors": ["intrinsicobjects/binaryblock.go:74-94", "intrinsicobjectschi/chain.go:135", "intrinsicobjectscri/block.go:53"]}
{"id": "C88", "title": "Every paid address of a stored chain can be asked for its outputs, from the files as they are", "statement": "After storing any chain, while it is still open or after closing it and opening it for reading, an address obtained by its number, by its hash, or from a handle with only a hash answers every sequence of calls with the number of outputs paying it, the height of each of them in order, its hash and its number, taken from the cached array files with all their folders, flushing and file groups. (The code violates this: as long as no address numbered in the same hundred thousand is paid twice, the number of outputs and the outputs are refused with an error, so nothing at all can be listed before the first repeated address of a chain.)", "quantifier": "all chains with fewer than 1.6e9 repeated payments, all paid addresses, all ways of getting the address object, all sequences of calls on it, all folder layouts around the store", "why_tests_cant": "Whether the array file of an address exists depends on all the other addresses in its group of 100000 and on the cache behind; small test chains always contain a repeated address in the only group.", "anchors": ["chainstorage/address.go", "chainstorage/concreteappendablechain.go: appendTxo", "chainstorage/concretereadablechain.go: AddressHandleByHash", "intarrayarray/cachedintarraymapstore.go", "intarrayarray/intarraymapstore.go: GetArray"]}
{"id": "C89", "title": "Every way of naming a block, transaction, input or output of a stored chain leads to it", "statement": "However a client of a stored chain gets to a block, transaction, input or output - first, latest, by height, by hash, next, previous, nth of a block or transaction, the output an input spends, the transaction of that output, handles of another package with a hash or with a transaction and an index, objects used as handles, in any combination - the handle names it: it is not invalid, its height is right, the object made from it is the right one, and its hash is given whenever the handle says it specifies one; past the ends there is the invalid handle, and unknown hashes are refused. (The code violates this: the handle of a block or transaction just looked up by hash panics when asked for its hash; an unknown hash in a handle of another package gives an object for height -1 without an error; after the invalid block comes the first block.)", "quantifier": "all chains (conditions of C34), all expressions built from the handle and object functions, of any depth", "why_tests_cant": "The handles are structs with optional parts, made at some twenty places and passed back in through interfaces; the fault shows only for particular pairs of maker and question.", "anchors": ["chainstorage/handles.go", "chainstorage/concretereadablechain.go", "chainstorage/block.go", "chainstorage/transaction.go"]}
{"id": "C90", "title": "A chain's folder: what creation makes, what opening shows", "statement": "A factory can be made exactly where the three parameter files are. Open (and OpenReadOnly) succeeds exactly when all fifteen files a chain needs are there in whole words, whatever names the factory was asked for, and then every part of the chain shows the words of the file of its name; its non-essential ints are those whose file is there in whole words. Create makes empty hash stores and creates from them; creating from hash stores where there is no chain makes one that opens, with exactly the requested non-essential ints and all files empty, and leaves every other file alone. Where a chain opens, no creation changes anything. A creation that fails leaves no chain behind, Exists says whether the chain opens, and a chain that opens can also be opened in RAM. (The code violates the last sentence: unsupported names are refused after the chain has been made, so it opens and cannot be created again; Exists is true from the hash stores on; in RAM a chain without inputs does not open.)", "quantifier": "all contents of the folder, all parameters, all lists of requested names, both RAM settings", "why_tests_cant": "Sixteen files can each be missing, empty, torn or whole, and creation can stop in between; tests create one chain in an empty folder and open it.", "anchors": ["chainstorage/concreteappendablechainfactory.go", "wordfile/concretewordfilecreator.go", "wordfile/concretemmapcreator.go", "indexedhashes3/hashstorecreator.go", "intarrayarray/concretemapstorecreator.go"]}
{"id": "C91", "title": "Indexing again over an existing index", "statement": "Bulk indexing a hash file into a folder where an index has been made before - completely or only in part, once or many times, by either indexer - leaves a store that opens and answers for exactly the hashes of the file, as if the folder had been empty. (The code violates this: files of overflowing bins are not removed, so after the hash file has become shorter a bin that is now exactly full still shows old hashes; with a hash file that only grows, as a chain being followed does, the claim holds.)", "quantifier": "all parameters, all hash files, all histories of complete and interrupted runs of both indexers, all schedules of the worker threads", "why_tests_cant": "It depends on the leftovers of every earlier run, stopped at any save, bin by bin; tests index once into an empty folder.", "anchors": ["indexedhashes3/multipasspreloader.go", "indexedhashes3/adaptivepass.go", "indexedhashes3/binstartsfile.go", "indexedhashes3/overflowfiles.go"]}
{"id": "C92", "title": "A successful bulk index covers the hash file", "statement": "When a bulk indexer reports success, the hash file was there, was a whole number of hashes, and the store left behind answers for exactly its hashes; a missing file or one ending inside a hash is reported as an error. (The code violates this for the adaptive indexer: it drops the error of its first stage, so for a missing or torn hash file it reports success and leaves an empty index.)", "quantifier": "all contents of the hash file of any length, all parameters, estimates, memory sizes and thread schedules", "why_tests_cant": "The error path is only taken for files cut at one of 31 offsets after any number of hashes, and the result looks like a valid, empty store.", "anchors": ["indexedhashes3/multipasspreloader.go: IndexTheHashes", "indexedhashes3/adaptivepass.go"]}
{"id": "C93", "title": "A run that is killed leaves a chain that opens and shows what was synced", "statement": "When the process of a run ends at any point - closed properly, or killed - the folder it leaves can be opened as a chain, and every word of the blocks stored before the last sync is in it. (The code keeps the second half, and the first after a close or directly after a sync. Otherwise it violates it: the files are appended to in buffers of 4096 bytes, which cut words of five and seven bytes, so a run killed with, for example, between 586 and 4096 outputs stored since the last sync leaves a folder that no factory opens and in which the chain cannot be created again.)", "quantifier": "all chains of blocks, both interfaces, delegated or own indexing, all points at which a run ends, independently for each file", "why_tests_cant": "The state on disk depends on how many words each of a dozen files got since the last flush; a test can only kill at a few moments, and with few outputs nothing was flushed at all, so the folder still opens.", "anchors": ["jobs/intrinsicparallel.go: PhaseThreeParallelIntrinsic, PhaseThreeParallelIntrinsicChi", "chainstorage/concreteappendablechain.go: AppendBlock, Sync, Close", "memfile/appendoptimized.go", "wordfile/concretewordfilecreator.go: OpenWordFile"]}
{"id": "C94", "title": "A parameter set accepted by the constructor works", "statement": "Every parameter set for the binned hash store that the constructor accepts gives a store in which all sessions of appends, lookups and reads are answered rightly, up to as many hashes as the index bits can number; in particular the ready-made sets chosen for a run over any number of years hold the blocks and transactions of that run. (The ready-made sets do. The constructor violates the claim in general: exactly those sets work whose number of bins is a power of two, whose sort numbers are wide enough for 2^64 divided by the number of bins, and whose index has at most 64 bits, and it checks none of these. At the limit of the index bytes the next append panics instead of returning an error.)", "quantifier": "all parameter values accepted by the constructor (at least one entry per bin, at most 2^56 bins), all sessions, all years in the tables", "why_tests_cant": "A bad set misbehaves only for hashes in a narrow range - those beyond the last bin, or with a large sort number - so a store filled with sample hashes passes.", "anchors": ["indexedhashes3/params.go: NewHashStoreParams, calculateDerivedValues", "indexedhashes3/sensibleparams.go", "jobs/intrinsicparallel.go: RunIntrinsic", "jobs/yearstats.go", "indexedhashes3/hashstore.go: AppendHash"]}
{"id": "C95", "title": "A cake whose process is killed opens again and goes on", "statement": "Whenever the process that appends to a cake is killed, the cake exists, opens again with the hashes that had reached the disk under the indices they were given, and takes further hashes. (Outside a bake this holds: the cake opens exactly as if it had been closed when the last hash reached the disk. During a bake it is violated: killed before the first forest has been described it cannot be opened; killed in a later bake before the forest has been described it keeps its answers, unless the file of a new level has just been made, when it cannot be opened, but the bytes left behind spoil the next bake; after the description, before the top tier is emptied, it opens but can never again take a hash; while the top tier is emptied it is said not to exist, and creating it gives a cake that hands out indices already taken, or it is said to exist and cannot be opened. From the description on the files can still be put right by creating the top tier with the right first index.)", "quantifier": "all histories of appends and reopenings with different hashes that do not fill the first tier, all moments between two changes of files, all numbers of hashes that had reached the disk", "why_tests_cant": "A test would have to kill the process within the few steps between particular file operations of one append in 65535.", "anchors": ["weddingcakeback/donutforestwrite.go: Write", "weddingcakeback/tiertop.go: AppendHash, MakeEmptyAfterBaking, Open", "weddingcakeback/tiertopcreator.go: Create, Exists", "weddingcakefront/cakecreator.go: HashStoreExists, CreateHashStore, OpenHashStore"]}
{"id": "C96", "title": "Creating a hash store gives an empty one, and it exists exactly if it opens", "statement": "For every kind of hash store, whatever is in the folder: after creating it the store exists, opens, has no hashes and finds none; and a store is said to exist exactly if it can be opened. (Holds for the store with its index in memory and for tier zero. The store with lookup and collision files is created empty but exists without opening if its creation was cut short. The binned store answers lookups with errors after being created, and making its bulk indexer already empties it in part. The uniform store does not open after being created. A cake created over one that has baked keeps the baked hashes while its indices start again at 0.)", "quantifier": "all folder contents, all parameters, all hashes; for the cake all histories that do not fill the first tier", "why_tests_cant": "Tests create stores in empty folders, and look up what they have appended; what is left from before and the answers of a store without content are not exercised.", "anchors": ["indexedhashes/concretehashstorecreator.go", "indexedhashes/concretehashstorecreatormemory.go", "indexedhashes/uniform.go: CreateHashStore, openHashStorePrivate", "indexedhashes3/hashstorecreator.go", "weddingcake/tierzero.go: TierZeroCreator", "weddingcakefront/cakecreator.go", "weddingcakeback/tiertopcreator.go"]}
{"id": "C97", "title": "A self-test that passes means that the store and the file of hashes agree", "statement": "If TestTheHashes of the bulk indexer returns nil, then the file is a whole number of hashes, and for every index of the file the store gives the hash at that index, and for that hash the index of its first occurrence. It returns nil after every bulk run over hashes the indexer copes with. (The second holds, with lines printed about repeated hashes only. Of the first only this holds: every hash is found under some index and every index has some hash; lines are printed exactly about those that differ, so a silent pass means agreement. It passes with the hashes in another order, and with repeated hashes for which the store gives the zero hash.)", "quantifier": "all folder contents, all parameters, all hash lists, all schedules, thread counts and memory grants of the bulk run", "why_tests_cant": "The self-test is itself the test; that it cannot pass on a wrong store needs all stores, not the ones it is run on.", "anchors": ["indexedhashes3/multipasspreloader.go: TestTheHashes, testOneHash"]}
{"id": "C98", "title": "A client that reuses its receivers sees exactly the block that is held", "statement": "For every block in the standard serialization of less than 2 GB held at any height below 2^32, a client that asks GetBlockInfo with the block's handle, GetTransactionInfo for every transaction handle received, and GetTxiInfo and GetTxoInfo for every handle these send, with one receiver of each kind used over and over, sees the block's hash, height and six fields, and for every transaction in order its hash, size, vsize and weight, all its inputs (none for the first transaction) and all its outputs with amount and whole script; whatever the receivers held before, and for any number of blocks one after the other.", "quantifier": "all blocks, all heights, all states of the receivers, all sequences of blocks", "why_tests_cant": "Left-overs in a reused receiver show only for particular pairs of consecutive blocks or transactions.", "anchors": ["intrinsicobjectschi/chain.go: GetBlockInfo, GetTransactionInfo, GetTxiInfo, GetTxoInfo", "intrinsicobjectschi/handles.go", "chainhandleinterface: BlockReceiver, BitcoinCoreTransactionReceiver, TxiReceiver, TxoReceiver", "chainstorage/concreteappendablechain.go: AppendBlockChi"]}
{"id": "C99", "title": "A handle put together from parts names an input or output of its own transaction, or is refused", "statement": "The interface permits a client to build transaction, input and output handles from the parts it has been given. A handle with another block's part is an error from each of the four calls. With this block's part, what is answered is the transaction's own input or output with the position in the part, and positions that the transaction does not have are not answered. All handles sent for a block, and for a transaction, differ. (Violated in the second: a position beyond the transaction's inputs or outputs gives those of the following transactions, said to belong to this one; beyond the last of the block it is a panic.)", "quantifier": "all blocks, heights and handle bytes", "why_tests_cant": "Handles are four-byte values of which tests use the ones they were given.", "anchors": ["intrinsicobjectschi/chain.go: GetTransactionInfo, GetTxiInfo, GetTxoInfo", "intrinsicobjects/intrinsictransaction.go: GetTxi, GetTxo", "chainhandleinterface/handles.go"]}
{"id": "C100", "title": "After a call a receiver holds only what that call sent", "statement": "After an answered call, the receiver holds the same hash, height, parent, handles, amount, script and fields whatever it held before; after a refused call it holds nothing of an earlier block. (Violated: fields that are not sent stay, and after a refused call the hash, the height, all fields and the amount are those of the earlier call, with the handles or the script emptied. All else holds.)", "quantifier": "all blocks, handles and receiver states", "why_tests_cant": "A test sees one earlier state of the receiver; this compares every two.", "anchors": ["chainhandleinterface/iblockreceiver.go: ResetReceiver", "chainhandleinterface/itransactionreceiver.go: ResetReceiver", "chainhandleinterface/itxoreceiver.go: ResetReceiver", "intrinsicobjectschi/chain.go: GetBlockInfo, GetTransactionInfo, GetTxiInfo, GetTxoInfo"]}
{"id": "C101", "title": "An append that has returned has stopped working", "statement": "When appending a transaction's contents (AppendBlock or AppendBlockChi) returns, nothing it started is still running and the store is not changed any more. (Holds when it returns nil, and the store is then the one of the sequential order, and when it returns an error of storing inputs. Violated when an output cannot be stored, for instance because its address is unknown: the goroutine that stores the inputs goes on after the return, writing to the files and using the same receiver as the next call, and in the end waits for ever on a channel that nobody reads.)", "quantifier": "all stores, transactions and interleavings of the two goroutines", "why_tests_cant": "Whether anything is written after the return depends on the schedule; a test sees one.", "anchors": ["chainstorage/concreteappendablechain.go: appendTransactionContents, appendTransactionContentsChi"]}
{"id": "C102", "title": "The worker pool processes every task sent exactly once and no client waits for ever", "statement": "Of a worker pool started with a concurrency of at least 1, whatever the clients send and however it is scheduled: every task is processed exactly as often as it is sent, SetError gets what its Process returned and comes after it, Done comes after SetError, never more tasks are being processed than the concurrency, every run ends with all tasks done, and after closing InChan with all workers ended. With a concurrency of 0 or less the first send waits for ever.", "quantifier": "all numbers of clients and workers, all lists of tasks, all results, all interleavings", "why_tests_cant": "Losing, repeating or misordering a task and deadlock depend on the schedule, and a test sees few of them.", "anchors": ["concurrency/workerpool.go: NewWorkerPool, WorkerPool, worker"]}
{"id": "C103", "title": "Walking an in-memory chain shows every block, transaction, input and output once and then stays at the end", "statement": "Of a chain of package tinychain that is put together rightly, as TheTinyChain is: from GenesisBlock with NextBlock until IsInvalid every block is shown once, in order, and from LatestBlock with ParentBlock the same backwards; likewise the transactions, which are those of the blocks one after the other; the handle of the n-th transaction, input or output leads back to it; the source of every input is an output of the chain; and past the end the handles stay invalid. (Violated for the last: NextBlock and NextTransaction of the invalid handle give the first block and transaction again, and PreviousTransaction of it gives height -2, which IsInvalid denies and TransInterface panics on. Also TheTinyChain has a transaction that spends an output of a later one.)", "quantifier": "all chains put together rightly, all handles", "why_tests_cant": "The tests look at some handles of the one chain.", "anchors": ["tinychain/blockchain.go", "tinychain/handles.go", "tinychain/instances.go: TheTinyChain"]}
{"id": "C104", "title": "The tree of one prefix in memory answers exactly and is no larger than twice its hashes", "statement": "GenerateSingleTree, of any different hashes of the right length that are alike in the prefix, makes a tree. LookupHash of any hash of the right length then gives the presentation index that was given with it, or SingleTreeNoMatch if it is none of them, and never panics; this holds for a lone hash too. VisitAllLeaves shows every hash and presentation index once, VisitAllNodes no node twice, CountLeaves is the number of hashes, CountNodes below twice that, and no node has a level beyond the length of a hash. (SingleTreeNoMatch is 0, so a hash given with presentation index 0 looks as if it were absent.)", "quantifier": "all prefixes, all sets of hashes, all hashes looked up, all ways of choosing among equally good bytes", "why_tests_cant": "The tests make some trees of random hashes and look for the hashes in them.", "anchors": ["weddingcakeback/singletree.go: GenerateSingleTree, LookupHash, VisitAllNodes, VisitAllLeaves, CountNodes, CountLeaves"]}
{"id": "C105", "title": "An address object of a growing chain tells the outputs of now", "statement": "While a chain is being written, clients keep address objects of it, made by number or by hash, and call TxoCount, NthTxo, Hash and Height on them between the outputs, in any order. Then every answer is the one for the outputs stored so far. (Violated by the code: an object answers from the outputs that were there at its first answer, and goes on to do so however many outputs are added that pay its address, while another object of the same address tells the new number. Before its first answer it gives errors as in C88, and an error does not stay.)", "quantifier": "all chains with fewer than 1.6e9 repeated payments, all ways of mixing outputs and calls on any number of objects, all folder layouts around the store", "why_tests_cant": "The tests make an object, read it and drop it; they do not keep one while the chain grows.", "anchors": ["chainstorage/address.go", "chainstorage/concreteappendablechain.go: GetAsConcreteReadableChain, appendTxo", "intarrayarray/cachedintarraymapstore.go"]}
{"id": "C106", "title": "The bytes of the word files of a finished chain are a function of the chain", "statement": "After a run that stores a chain and closes it, each word file holds exactly the following numbers, each in the file's width, least byte first, and nothing else. Blocks/firsttrans.int (4 bytes): for each block the number of transactions before it. Parents/parentblockoftrans.int (4): for each transaction its block. Transactions/firsttxi.int and firsttxo.int (5): the number of inputs, outputs of the transactions before. TransactionInputs/tx.int and vout.int (4): for each input, coinbase inputs left out, the transaction it spends from and the position in it. Parents/parenttransoftxi.int and parenttransoftxo.int (5): the transaction of each input and output. TransactionOutputs/value.int (7): the amounts. TransactionOutputs/address.int (5): the number of the address, which is the height of the first output that pays it. TransactionOutputs/spenttotxi.int (5): zeros. Addresses/firsttxo.int (5): up to the last address number, the number itself if it is one, else zero. The files of requested integers: the lowest bytes of each. The files do not depend on whether transaction indexing was delegated, on an earlier run in the process, or on what was in the folder before.", "quantifier": "all chains with distinct hashes whose amounts and counts fit the widths, both source interfaces, any requested integers of one to eight bytes", "why_tests_cant": "The tests read a small chain back through the library, so a change of the format that reading undoes goes unseen, and no test looks at the bytes.", "anchors": ["chainstorage/concreteappendablechainfactory.go:57-143", "chainstorage/concreteappendablechain.go: AppendBlock, appendTxi, appendTxo, Close", "wordfile/wordfile.go: WriteWordAt"]}
{"id": "C107", "title": "Several goroutines can use one word file or hash file at once", "statement": "Goroutines that read and write words (or hashes) through one file object get what they would get by calling one after another. (Violated by the code without a lock around each call: of two goroutines that read two different words, one can get any byte-wise mix of the two, and a goroutine that reads while another writes can change what is stored, with no error. What remains true: under a lock all answers and the file are right; of goroutines that only read, the file is unchanged, errors come exactly past the end, and every byte of an answer is the byte in that place of a word that some goroutine reads, so all is right if all read the same word.)", "quantifier": "any number of goroutines, any calls, any interleaving of single byte moves, any word size", "why_tests_cant": "A race shows only under particular schedules; the tests use one goroutine.", "anchors": ["wordfile/wordfile.go:13-64", "wordfile/hashfile.go:7-48", "chainstorage/concreteappendablechain.go: GetAsConcreteReadableChain"]}
{"id": "C108", "title": "A failing disk is noticed, and synced bytes survive it", "statement": "On a file opened for appending, when the operating system fails a write (in part or altogether) or a sync: (1) as long as no call on the file has returned an error, every answer is right, and after a nil Sync or a nil Close all the bytes are on disk; (2) the bytes of the moment of a nil Sync stay on disk, outside the ranges later writes are aimed at, whatever fails later and however the client goes on; (3) a call that returns nil has done what it says also after an earlier call failed. Part (3) is violated: an append that fails throws away earlier appends that had returned nil, the following Sync and Close return nil and Size counts the lost bytes; trying the failed append again returns nil and stores the bytes at the wrong offset. Whatever fails, Size never reports less than the length of the file on disk.", "quantifier": "for every initial content, every sequence of reads, non-empty writes, size queries, syncs and a close, and every way the disk can fail: any of its calls, after any number of bytes; for the violations, every content and every appended bytes", "why_tests_cant": "The failures of an operating system cannot be produced on demand in a unit test of code that opens real files, and there are unboundedly many combinations of where a write fails and what the client does afterwards.", "anchors": ["memfile/appendoptimized.go:32-42", "memfile/appendoptimized.go:59-113", "memfile/appendoptimized.go:115-148"]}
{"id": "C109", "title": "A run that returns nil has stored its chain", "statement": "When the job that stores the blocks of a chain returns nil, the chain is in the folder: the folder can be opened as a chain and every word file has exactly the chain's bytes, whatever errors the disk has returned to the process on the way. Proved when also every file was closed without an error. Violated otherwise: the chain's Close drops the errors of closing its files, though most bytes of a short chain are only written then; so for any good chain of up to ten thousand blocks with an output there is a disk on which the job returns nil and outputs are missing from the file of values, and with 586 to 4096 outputs the folder can neither be opened nor be filled again.", "quantifier": "for every chain of blocks that meets the library's requirements, both ways to present it, delegated indexing or not, and every disk: any write or sync of any word file may fail after any number of bytes", "why_tests_cant": "A disk that fails at a chosen moment cannot be arranged in a unit test of code that opens real files; the claim is about all moments of all files, and the failure found is in a result that no caller looks at.", "anchors": ["jobs/intrinsicparallel.go:443-535", "jobs/intrinsicparallel.go:538-627", "chainstorage/concreteappendablechain.go:973-996", "chainstorage/concreteappendablechain.go:1034-1113", "memfile/appendoptimized.go:59-148", "wordfile/wordfile.go:44-80"]}
{"id": "C110", "title": "A kill inside an append harms no stored hash", "statement": "When the process is killed anywhere inside AppendHash of the collision-chained hash store, and the files are opened again, every hash appended before is still found by IndexOfHash under its first index, and stays so when further hashes are appended. Proved for the opened files except at one moment: when the new hash is the first to share the partial key of a stored hash and the kill comes right after the lookup word is written, that stored hash gives an error. Violated when going on: from that moment, two more hashes with another common key are appended without an error and the stored hash is then reported absent; killed before the zeros of a chunk are written, the chunks are out of step and a hash appended later without an error cannot be looked up. The hash whose append was cut off after its first write is counted and returned by index but not found.", "quantifier": "for every partial-hash width, entry width and chunk size the store supports, every sequence of hashes with any pattern of collisions and duplicates, every hash being appended, every stored hash looked up, and every number of writes done before the kill", "why_tests_cant": "A test cannot end the process between two writes of one call, and the harm depends on which writes have been done and on which keys collide before and afterwards.", "anchors": ["indexedhashes/hashstore.go:35-255", "indexedhashes/hashstore.go:258-355", "indexedhashes/concretehashstorecreator.go:90-139"]}
{"id": "C111", "title": "What was stored before a session survives its being killed", "statement": "Fill a collision-chained hash store, close it, open it with the lookup file held in memory, append hashes, synchronize, be killed, and open it again in any way: every hash stored before the session is found under its first index, every hash of the session too, and all are there by index. Proved for the hashes stored before, and for those of the session whose partial key was already shared by two earlier hashes; the counts and the hashes by index are complete and no lookup is an error. Violated for all other hashes of the session: they are reported absent without an error although Sync had returned nil.", "quantifier": "for every supported choice of parameters, every list of earlier and of later hashes with any collisions and duplicates, every way of opening before and after, every hash looked up and every index", "why_tests_cant": "A test that kills its own process in the middle cannot look at the result, and which hashes survive depends on the whole pattern of partial keys before and during the session.", "anchors": ["indexedhashes/hashstore.go:35-355", "indexedhashes/hashstore.go:396-408", "indexedhashes/concretehashstorecreator.go:90-139", "memfile/fixedsize.go:17-49"]}
{"id": "C112", "title": "What the array store has synced survives a kill", "statement": "Append to arrays of the caching array store, Sync, go on appending, reading and syncing, and be killed at any moment. Opened again, every array reads back, in order, everything appended to it before the Sync and nothing that was not appended. Proved for every array that does not live in the one file being written when the process is killed, including kills part way through a write and every order in which the files are saved. Violated for the arrays of that file: it is emptied before it is written, and a kill in between makes reading and appending to any of its arrays panic, however long ago their values were synced.", "quantifier": "for every file and folder size, every cache limit, every session before and after the Sync whose calls return, every order of saving, every point between two disk operations, every number of bytes of the write under way, every array", "why_tests_cant": "The moment between emptying and writing a file is not reachable from a test of the package, and which files are written when depends on cache eviction and on Go's map order.", "anchors": ["intarrayarray/intarrayarray.go:37-114", "intarrayarray/cachedintarraymapstore.go:43-178", "intarrayarray/concretemapstorecreator.go:47-59"]}
{"id": "C113", "title": "An array file cut short is not taken for a whole one", "statement": "Let only a proper part of an array file have been written, cut at any byte. Reading it afterwards is noticed: it never returns an array that differs from what was saved. Proved: loading panics unless the cut is inside the last array of the file, and if it returns, every array but the last is exactly what was saved; so a store killed at any byte of any write and opened again shows, for every array but the last of its file, a panic or what was appended. Violated for the last array: with the last byte missing its last value loses its top byte, and with its length cut an array of 256 values reads as empty, both without an error.", "quantifier": "for every number of arrays, element size, contents and cut; for every session of the store, kill point and number of bytes written, every array", "why_tests_cant": "It depends on Go letting a slice reach beyond the length of a buffer up to its capacity, which differs with the size of the file; a test would have to try every cut of every file.", "anchors": ["intarrayarray/intarrayarray.go:43-114", "intarrayarray/varint.go:18-33", "intarrayarray/cachedintarraymapstore.go:43-62"]}
{"id": "C114", "title": "No file stays open once a chain is closed or has failed to open", "statement": "After a chain or a hash store has been created, after it has been opened and closed, and after it has failed to open, the process has no more files open than before. Proved for the chained hash store, for the chain of hashes that opens, for creating a chain on existing hash stores, and for a chain: exactly which files stay open after Close and after a failed Open. Violated: creating a chain leaves three files open; an optional file that is not a whole number of words is passed over but stays open after Close; a failed Open leaves open the torn word file or the one file left of a hash store; a chain of hashes that fails to open leaves open the files before the missing one; a chain opened for reading has no Close, so opening it n times leaves at least 18*n files open.", "quantifier": "for every content of the folder (every file missing, torn or whole), every set of requested names, every table of open files, every number of openings", "why_tests_cant": "Open files do not show in any result; a test would have to inspect the process after every combination of missing and torn files, on each of some fifteen error paths.", "anchors": ["chainstorage/concreteappendablechainfactory.go:149-718", "chainstorage/concreteappendablechain.go:973-996", "chainstorage/concretehasheschainfactory.go:89-123", "wordfile/concretewordfilecreator.go:75-125", "indexedhashes3/hashstorecreator.go:115-163", "indexedhashes/concretehashstorecreator.go:53-177"]}
{"id": "C115", "title": "A cake that is closed, or failed to open, holds no file or memory map", "statement": "Opening a cake (the tiered hash store) holds exactly the file of its top tier and, for each tier there is on disk, the maps of its levels, the map of its jump table and the file of its hashes. However it was then used, if nothing returned an error and Close does not either, the process holds exactly what it held before; for a new cake that takes different hashes and is closed and opened in between, none of these return an error. Close of a cake just opened returns no error exactly if every tier there is has a file for level 0. Violated: if Close returns an error the top file stays open; every failed opening of a cake that exists leaves the top file open, and everything of the tiers before the first bad one; and while a cake is open each time its first tier becomes full one more hash file of a tier below stays open.", "quantifier": "for every content of the folder, every configuration, every sequence of appends, closings and openings, every table of things already held, every number of attempts", "why_tests_cant": "What a process holds does not show in any result; it depends on which of the files of which tier is missing or empty, and the files left while a cake is open only appear after hundreds of thousands of hashes.", "anchors": ["weddingcakeback/tiertop.go:38-178", "weddingcakeback/tiertop.go:280-337", "weddingcakeback/tierbelow.go:73-190", "weddingcakeback/tierbelow.go:353-396", "weddingcakeback/tierbelowsource.go:119-175", "weddingcakeback/donutforestwrite.go:28-265", "weddingcakefront/cake.go:76-84"]}
{"id": "C116", "title": "A cake never gives a wrong hash for an index, however many tiers have been filled", "statement": "In a cake reached by any appends and reopenings that did not fail, whatever the settings, the hashes, and the number of tiers filled and emptied into the next on the way: the appends returned 0, 1, 2, ... in order, and whenever asking for the hash at an index returns, the answer is right (the hash whose append returned the index, or 'not found' exactly if no append returned it). If the cake has just been opened it returns for every index, except that it crashes for the indices of the hashes appended since the last full batch if there has been a full batch.", "quantifier": "for every configuration with a positive batch size, every sequence of fewer than 2^63 appends with reopenings in between, every index", "why_tests_cant": "The hashes pass from tier to tier, with their indices implied by the order of the files; the first such move takes hundreds of thousands of hashes and the next ones tens of millions.", "anchors": ["weddingcakefront/cake.go:53-92", "weddingcakeback/tiertop.go:145-216", "weddingcakeback/tiertop.go:280-337", "weddingcakeback/tierbelow.go:81-145", "weddingcakeback/tierbelow.go:250-268", "weddingcakeback/donutforestwrite.go:28-265"]}
{"id": "C117", "title": "A cake has room for a fixed number of hashes, and the tier of a hash follows from their number", "statement": "If n appends to a cake, with any reopenings in between, have not failed, then n is less than the size of the top tier times the quotas of all tiers below (about 5.4 trillion with the project's own settings, the first tier having a quota of 5), and a cake with one hash less than that takes no other. The files of the top tier hold the remainder of n by its size, and those of each tier below hold as many batches as the digit of n for that tier, where a batch is as large as the top tier times the quotas of the tiers before.", "quantifier": "for every configuration with positive batch size and quotas, every sequence of appends and reopenings, of whatever hashes", "why_tests_cant": "The deeper tiers are reached after hundreds of thousands, tens of millions and billions of appends; no test gets to the end of the room.", "anchors": ["weddingcakeback/cakeconfig.go:3-51", "weddingcakeback/donutforestwrite.go:200-265", "weddingcakeback/tiertop.go:180-216", "weddingcakeback/tiertop.go:280-337", "weddingcakeback/tierbelow.go:421-500"]}
{"id": "C118", "title": "A failed append leaves no trace in a cake", "statement": "If appending a hash to a cake returns an error, the hash is not found afterwards, no later append panics, no index is given to two hashes, and the appends after it that return no error get indexes under which their hashes are found also when the cake has been closed and opened again. If no append failed and Close returns nil, everything is found after opening as it was before closing. A cake whose file of recent hashes ends in part of a hash still takes appends.", "quantifier": "for every file the cake is opened with, every sequence of appends and syncs, and every sequence of full and partial failures of the disk", "why_tests_cant": "Tests run on a disk that does not fail; writes are buffered, so that the error comes some 128 appends after its cause, and its effect shows only after opening again.", "anchors": ["weddingcakeback/tiertop.go:74-127", "weddingcakeback/tiertop.go:163-216", "weddingcakeback/tiertop.go:252-337", "wordfile/hashfile.go:32-69", "memfile/appendoptimized.go:59-121"]}
{"id": "C119", "title": "An array store on a failing disk loses nothing without saying so, and keeps answering", "statement": "If Sync of an array store returns nil then every element appended so far is in the files, in order, whatever saves and reads the disk has refused or cut short before; GetArray returns exactly the elements appended or an error; and every call returns.", "quantifier": "for every session of appends, reads and syncs over any arrays, every cache limit, every order in which the cached files are saved, and every sequence of failed or cut reads and saves", "why_tests_cant": "Tests run on a disk that does not fail. What is lost shows only when the file is read in a later session, and the hang needs a full cache and a full disk at once.", "anchors": ["intarrayarray/cachedintarraymapstore.go:43-178", "intarrayarray/intarraymapstore.go:56-147", "intarrayarray/intarrayarray.go:43-114"]}
{"id": "C120", "title": "A binned hash store on a failing disk keeps what it has stored", "statement": "If AppendHash of a binned hash store returns nil, the hash and every hash stored before are found under their indices; if it returns an error, every hash stored before is still found under its index and the append can be tried again. IndexOfHash gives -1, and GetHashAtIndex a hash, only if that is the truth; otherwise they return an error.", "quantifier": "for every parameter set that works, every session of appends, lookups, reads, counts, syncs and reopenings, and every failure of a read, of making a folder, or of a write at any byte, in any of its operations", "why_tests_cant": "Tests run on a disk that does not fail. The hashes lost are not those being appended, so a test of the failing call alone does not show it, and it depends on how full the bin is and where in it the new entry goes.", "anchors": ["indexedhashes3/hashstore.go:66-151", "indexedhashes3/binfiles.go:11-50", "indexedhashes3/binfiles.go:137-162"]}
{"id": "C121", "title": "A binned hash store whose process is killed opens again and stays consistent", "statement": "Kill the process of a binned hash store between two calls and open the store again. It opens; it lists every hash that was appended before the last Sync, and some of those appended since, in order; IndexOfHash and GetHashAtIndex agree with each other and with CountHashes, and no index is given to two hashes.", "quantifier": "for every parameter set that works, every session of appends, lookups, reads, counts, syncs, reopenings and kills, in any order and number, and all hashes", "why_tests_cant": "A test ends by closing the store. What is lost depends on how full a buffer in the standard library is; whether the store opens depends on whether the width of a bin number divides 4096, which holds for the small stores of tests and not for the real ones.", "anchors": ["indexedhashes3/hashstore.go:66-176", "indexedhashes3/hashstorecreator.go:138-150", "memfile/appendoptimized.go:59-148", "wordfile/concretewordfilecreator.go:75-139"]}
{"id": "C122", "title": "A cake tolerates repeated hashes and finds each under its first index", "statement": "A hash may be appended to a cake more than once. No append fails for it; every append is numbered in order; GetHashAtIndex gives the hash back at each of its indices; and IndexOfHash gives the first index the hash was appended under. (So says weddingcakefront/README.md.)", "quantifier": "for all sequences of hashes, with any repeats, in the same batch or in others, and the cake closed and opened again at any points", "why_tests_cant": "The answer depends on where the two appends fall with respect to every 65535th hash and to the reopenings; a test tries a few places.", "anchors": ["weddingcakefront/README.md", "weddingcakefront/cake.go:27-92", "weddingcakeback/tiertop.go:100-143", "weddingcakeback/tiertop.go:176-216", "weddingcakeback/bakingdesigner.go:81-96"]}
{"id": "C123", "title": "A stored chain read from a failing disk gives the truth or an error", "statement": "While a stored chain is read, any access to the disk may fail. Each call of the reading interface then returns an error, or the same answer as on a working disk; an error says that a hash is not in the chain only if it is not; a failure does no lasting harm, so that the same object answers rightly once the disk works again.", "quantifier": "for all contents of the files, all calls and sequences of calls, all clients that stop at the first error, and every choice of the accesses that fail", "why_tests_cant": "A test injects a few failures, if any; the claim is about every subset of the accesses of every call.", "anchors": ["chainstorage/block.go:18-80", "chainstorage/transaction.go:14-165", "chainstorage/transaction.go:201-275", "chainstorage/concretereadablechain.go:107-320", "chainstorage/address.go:16-84"]}
{"id": "C124", "title": "Gathering the hashes of a chain on a failing disk: nil means that they are stored", "statement": "While the hashes of blocks, transactions and addresses are gathered, any write to the disk may fail. If every call, and the job that makes them, reports no error, then the three files hold every hash, in order.", "quantifier": "for all chains, both ways of appending, and every choice of the disk accesses that fail, each after any part of its bytes", "why_tests_cant": "A test has a working disk; a write fails only when a buffer is handed on, so the loss shows after many hashes and at one moment among them.", "anchors": ["chainstorage/concretehasheschain.go:28-207", "jobs/intrinsicparallel.go:277-441", "wordfile/hashfile.go:33-69", "memfile/appendoptimized.go:59-148"]}
{"id": "C125", "title": "Reading the file of hashes from a failing disk: nil means that all of it was read", "statement": "While hashes are indexed in bulk, or an index is tested against the file of hashes, any read of that file may fail or give fewer bytes than asked for. If indexing or testing reports no error, then every hash of the file was indexed or tested.", "quantifier": "for all files, parameters and grants of memory, every number of passes, and every choice of the reads that fail or are short, in each pass", "why_tests_cant": "A test reads a small file from a working disk; a failing read looks exactly like the end of a shorter file, and can come after any number of chunks in any pass.", "anchors": ["indexedhashes/multipasspreloader.go:122-147", "indexedhashes/multipasspreloader.go:261-302", "indexedhashes3/multipasspreloader.go:91-131", "indexedhashes3/singlepass.go:38-87"]}
{"id": "C126", "title": "The parameters of a hash store are read back as they were written, or not at all", "statement": "A hash store keeps its parameters in a file, from which it is opened later. When a constructor that writes the file reported no error, opening the store from its folder uses exactly the parameters the constructor used, or is an error. In particular a file cut short, by a full disk or because the program was killed, is an error and never read as other parameters.", "quantifier": "for all values of the parameters, every number of bytes written, and every earlier contents of the folder", "why_tests_cant": "A test writes and reads back one set of parameters on a working disk; the claim is about all values and all beginnings of the text.", "anchors": ["indexedhashes3/hashstorecreator.go:23-97", "indexedhashes3/params.go:3-59", "indexedhashes/uniform.go:26-80"]}
