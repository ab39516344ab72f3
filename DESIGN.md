# Design of the formal model

Subject: KitchenMishap/pudding-shed (Go), read as text from `/repo`.  Nothing in the repository is built or executed.

## Layout

* `lean/Verif/Model/*.lean` - executable model, function by function, each definition cites the Go file and lines.
* `lean/Verif/Lemmas/*.lean` - helper lemmas.
* `lean/Verif/Props/*.lean` - small specifications and the property theorems (one file per area), each followed by an `example` showing a concrete case that meets the hypotheses.
* `properties.jsonl` - the English properties; `MANIFEST.json` maps each to theorem names; `seeded/LOG.jsonl` records wrong-program experiments.

## Modelling conventions

* byte = `UInt8`, byte slice/file content = `List UInt8`; writing past the end of a file zero-fills the gap (POSIX).
* Go `int64`/`uint64` values are `Nat`/`Int` with the wrap-around written out wherever a conversion can change the value.
* a Go `error` return is an `Except`/`Option` value; a Go `panic` is a distinguished outcome, never ignored.
* goroutines and channels are step machines; theorems quantify over all schedules.
* float64 is an arbitrary rounding function `fl` with relative error at most 2^-53 on the values used (`FloatOK`), or an oracle constrained only by what the surrounding code checks (entropy of a partition, bin-size optimisation).
* `sort.Slice` and friends are any function whose result is a sorted permutation of its input (`SortOK`, `SortDescOK`); no stability is assumed where Go promises none.
* the bitcoin node behind the REST calls is an arbitrary function, and the transaction indexer handed to a block holder an arbitrary accept/refuse oracle.
* hash functions (SHA-256) are arbitrary function parameters.

## Trusted base

* Lean 4.33.0 kernel; the axioms `propext`, `Classical.choice`, `Quot.sound` only (checked with `#print axioms`). No `sorry`, no added axioms, no `native_decide`.
* The faithfulness of the hand-written model to the Go text (file/line citations are beside each definition).
* Not modelled: chainreadentities/chainreadentities.go, which does not compile (`else` on a new line, `if err {`, undeclared variables) and which nothing imports.
* Not modelled: the Go memory model beyond the stated step machines, OS-level failures other than those named, HTTP transport, JSON decoding, garbage collection and performance. Floating point is not IEEE arithmetic bit by bit but any rounding as described above.

## Plan per property

| id | property | model | proof method |
|---|---|---|---|
| C01 | Append-optimised file behaves as a plain byte file | Model.AppendOpt: state machine over (disk bytes, optional append buffer, next append offset, total size) for ReadAt/WriteAt/flush/Sync/Close/Size; spec is a plain byte list with zero-filling WriteAt. | refinement: coupling invariant (plain file = disk ++ buffer) by induction over operations |
| C02 | Word file returns the last value written at each offset | Model.WordFile: bytes of the file, the shared 8-byte scratch buffer and the word count. | invariant by induction over histories against a spec 'last write wins' map |
| C03 | Reading one word does not depend on values written elsewhere | same model, including the stale high bytes in the scratch buffer. | concrete negation + `_partial` for fitting values |
| C04 | Memory-shadowed word file agrees with the plain word file | Model.ShadowWordFile: shadow slice + WordFile. | simulation by induction |
| C05 | Hash file stores 32-byte hashes independently | Model.HashFile over bytes with 32-byte records. | as C02 |
| C06 | Reopening a word file restores its count and refuses ragged files | countWords / open / close. | direct, for all contents |
| C07 | Variable-length integers round-trip and are self-delimiting | Model.VarInt: WriteToFile/ReadFromFile/ReadCompactSize on byte lists. | case analysis + LE codec lemma |
| C08 | An array-of-arrays file round-trips | Model.IntArrayArray: SaveFile/LoadFile. | induction over arrays |
| C09 | Array map store keeps every appended element in order | Model.MapStore: file system as a map path -> file, latest and older cache. | invariant by induction over operations, against spec 'append log' |
| C10 | Caching array store keeps every appended element and its memory bound bookkeeping | Model.CachedMapStore with eviction order as an oracle. | invariant; negation for the tally |
| C11 | Numbered folders never put two arrays in conflicting files | Model.NumberedFolders on digit lists / strings. | arithmetic of bigits; injectivity |
| C12 | Sequencer emits every item exactly once, in order | Model.Sequencer as a step machine (receive, emit). | invariant over all arrival lists |
| C13 | Sequencer back-pressure flag is exactly 'backlog at or above the limit' | same. | invariant |
| C14 | Memory blocker admits only below the limit and loses no wake-up | Model.MemBlocker: any number of threads as a step machine over the heap size. | invariant over all interleavings; negation for two waiters |
| C15 | Hash hex strings round-trip and are byte-reversed | Model.Hex. | round trip by induction |
| C16 | Basic hash store: index and hash are inverse | Model.HashStores. | induction over appends |
| C17 | Collision-chained hash store finds exactly the appended hashes | Model.ChainedHashStore: lookup file, collision chunk file, hash file. | chain invariant by induction over appends |
| C18 | Memory-indexed hash store reopen keeps its content | Model.HashStores. | negation + `_partial` single session |
| C19 | Tier-zero store: latest-index lookup survives reopen | Model.HashStores. | induction over histories with reopen |
| C20 | Bin number is always a valid bin and (bin, sort number, truncated hash) determines the hash | Model.Bins: divider, bin number, sort number, truncated hash. | Nat arithmetic |
| C21 | Bin entry bytes round-trip | Model.Bins entry codec. | LE codec |
| C22 | Bins stay sorted and lookup finds exactly what was inserted | Model.Bins insert/search; float64 as any rounding `fl` with relative error at most 2^-53 (`FloatOK`). | sortedness invariant; search correctness by fuelled recursion that is shown to suffice |
| C23 | Saving and loading a bin preserves it | Model.BinFiles. | round trip |
| C24 | Binned hash store: appended hashes are found at their index | Model.HashStore3. | induction over appends |
| C25 | Bulk indexing gives the first occurrence of every hash | Model.Bulk3. | permutation/sort argument |
| C26 | Tree over a set of hashes finds each hash's index | Model.ShallowTree: generation, lookup and visiting of the in-memory tree. Entropies are an arbitrary function that is zero exactly when all the hashes agree on the byte. | induction over the generated tree |
| C27 | Node format grouping covers every node and never exceeds its capacity | Model.NodeFormat: shapes, proposals, merging with the 32 bit costs of the code. | invariant over merge loop |
| C28 | Node ids are unique and locate the node's bytes | Model.Chunk: id allocation, index bytes, node bytes, ExtractNode. | arithmetic over group lists |
| C29 | Serialized tree lookup agrees with the in-memory tree | Model.Chunk: tiny, medium, full and leaf nodes, lookup in bytes. | refinement tree -> bytes; both limits (65 levels, id width) shown to be real |
| C30 | Chunk files give back every chunk appended | Model.ChunkFiles: the record file and the level files as bytes, AppendChunk, ReadAndMmap. | invariant over the chunks read so far; exact result for every list; negation + `_partial` for one chunk; composed with C57 |
| C31 | Fixed-width ids round-trip or are rejected | Model.IdFormats: ID16 to ID40 of both packages, for ids of 16, 32 and 64 bits. | byte arithmetic; the unchecked writer truncates exactly the ids out of range |
| C32 | Top tier: global index conversion is inverse of append order | Model.TierTop: open, append, both lookups, emptying after a bake; callers' memory as memory. | invariant over histories of appends, writes to callers' memory and reopenings; negation of reading by index after a bake, and of stability against the caller reusing the array; `_partial` before the first bake |
| C33 | A hash baked alone in its prefix bucket is still found | Model.SingleTree: the tree of one prefix and its search. | exact condition for a lone hash (negation); `_partial` for all other buckets by the invariant `Built` |
| C34 | Stored blocks partition the transactions in order | Model.ChainStore: every word file as a list; AppendBlock for the three input interfaces. | invariant `Closed` over append histories |
| C35 | Stored transactions keep their inputs and outputs in order | same. | same |
| C36 | Every input resolves to the output it spends | same, hash indexing as a function parameter with stated contract. | same |
| C37 | An address lists exactly its outputs, in order, first output first | same. | invariant on first-appearance numbering |
| C38 | Parallel writing of inputs and outputs is schedule independent | Model.ChainStoreParallel: the two goroutines as programs of single file accesses. | locality of each access, commutation; all interleavings |
| C39 | Two chains can be built in one process | Model.ChainStore with process globals. | negation + `_partial` |
| C40 | Navigation visits each block and transaction once, in order | Model.ChainStore handles. | induction |
| C41 | Binary block parser recovers the serialized block | Model.BinBlock; spec serializer written from the Bitcoin format. | parser/serializer round trip |
| C42 | Transaction id ignores witness data | hash function is a parameter. | corollary of C41 |
| C43 | Size, stripped size, weight and virtual size are the standard ones | same. | same |
| C44 | Median time is the median of the last eleven block times | Model.BlockHolder; `sort.Slice` any function that sorts. | sliding-window invariant |
| C45 | Block hash streaming yields the chain's hashes in height order | Model.HashStream: node as a function from (hash) to headers. | induction over batches; negation for a short chain |
| C46 | Blocks out of sequence are never accepted | Model.BlockHolder. | invariant over input streams |
| C47 | A crash loses only an unsynced tail of appends | Model.AppendOpt. | invariant |
| C48 | Zero-length writes are harmless | Model.AppendOpt. | negation + `_partial` |
| C49 | ReadAll returns the whole file | Model.AppendOpt. | negation + `_partial` |
| C50 | The producer / worker pool / sequencer pipeline never deadlocks | Model.Sequencer with producer and pool. | progress + measure, all schedules |
| C51 | Hash text that is not 64 hex digits is refused | Model.Hex. | negation + `_partial` |
| C52 | Tier-zero append on a torn file | Model.HashStores. | negation, universally quantified |
| C53 | Adaptive-pass bulk indexing | Model.Adaptive3: tally, plan of passes, reader, bin workers. | invariants over all schedules; negations |
| C54 | Loading all bins into memory agrees with loading each bin | Model.BinFiles. | direct, for all contents |
| C55 | After bulk indexing every index gives back its hash | Model.Bulk3. | `_partial` + negation |
| C56 | Extra per-block and per-transaction integers read back as stored | Model.ChainStore. | invariant |
| C57 | A prepared chunk finds every hash it was made of | Model.Chunk. | composition of C26 to C29; counting of nodes per level |
| C58 | Looking up a hash in an opened tier gives the index it was put in under, or nothing | Model.DonutForest: design, serialization, files, opening, lookup of a tier (weddingcakeback); nodes and formats shared with Model.NodeFormat, Model.Chunk (`Config.back`). | C57's invariants for each forest, induction over forests; negation for every tier with few reassurance bytes |
| C59 | The hash at an index of an opened tier is the hash put in under that index | same. | induction over batches |
| C60 | The hashes taken out of a tier are exactly those put in | same. | induction over levels; every node format read back child by child |
| C61 | A tier that was baked can be opened | same; the two ways level files are named. | exact condition; negation for every batch with ten one-byte variants of a hash |
| C62 | Baking a batch panics exactly if it has two equal hashes | same. | direct |
| C63 | Hashes baked into a tier with prefix bytes can be found | same, prefix bytes as parameter. | negations: concrete for one prefix byte (also on a whole cake, `cascade_loses_hashes`), universal for two. Positive: emptying a tier reads every bucket, by induction over them. No positive part beyond that and C33: it would need levels with one node format only |
| C64 | Appending hashes to a cake numbers them 0, 1, 2, ... | Model.Cake: the front (cake.go), the top tier writing itself out, the chain of tiers below, closing and reopening. | invariant over all histories, by induction over operations |
| C65 | Looking up a hash in a cake gives its index, or -1 | same. | invariant, then C57/C58's lookup per batch |
| C66 | Looking up a hash in a cake never crashes | same; the pointer to the next tier is part of the state. | invariant; negation for every history baking a non-first batch in a session |
| C67 | The hash at an index of a cake is the one appended under it | same. | invariant; negations for all histories of the kinds named |
| C68 | A caller may reuse the array it passed a hash in | same; cells of the top tier refer to caller memory (`Memory`). | negation for every batch size |
| C69 | JSON and binary give the same block | `JsonBlock.parseBlock` on the decoded struct; spec `Describes` (hex text, float amounts, optional fields) built on the serialization spec of C41 | induction over inputs, outputs, transactions; storages related by `SameStorage` |
| C70 | Amounts read from JSON are exact | `satoshis`; float64 as any `FloatOK` rounding | error bound below one half |
| C71 | A fetch retries, unaffected by earlier failures | `fetch` over a list of replies; the parser as a state transformer on the target block | induction over attempts; independence of the target |
| C72 | The block pipeline delivers everything in order and ends, under any scheduling | `Model.Pipeline`: every goroutine a program counter, one step per channel operation, close or critical section; runs are arbitrary sequences of steps | inductive invariant (numbers in flight are exactly those between delivered and handed out), progress by cases, a cost that every step lowers |
| C73 | The pipeline holds a bounded number of blocks | same machine | invariant at the valve |
| C74 | The multi-pass index finds every hash at its first position | `Model.Uniform`: multipasspreloader.go and uniform.go over bytes of `Hashes.hsh`, `BinStarts.bst` and the overflow files; floats as any rounding within half an ulp | invariant over chunks, passes and bins (the bins already passed hold exactly the first positions in order); float error bounds for the number of bins |
| C75 | A hash appended to a uniform hash store can be found | same model; which overflow folders exist is arbitrary | negation: appends keep everything a lookup reads |
| C76 | The self test tells sound from unsound stores | same model (`Test` without its printing) | induction over the loop, using C74 |
| C77 | A whole run stores the chain of the node | `Model/Run.lean`: `RunIntrinsic` with phases one and three of both interfaces over the models of C45 (streamer), C72 (pipeline), C41–C43 (parser), C44/C46 (holder) and C34–C40 (store); phase two is the lookup of the first occurrence (C25) | each phase refines feeding the blocks into its sink (induction over the blocks still to come), the shown block equals a separate specification of what is written, then the read-back theorems of C34–C37 and C56 are stated again in terms of the serialized chain |
| C78 | A run with a block limit stores the first blocks | phases of C77 with fewer blocks in phase three than in phase one | the ingest invariant for a prefix of the blocks; the store with its hash stores cut off satisfies the read-back lemmas, and the reads that do not consult the ends of the hash stores carry over. Negations for the reads that do |
| C79 | A whole run with the hash indexes it builds | C77 joined with the bulk indexers of C25 and C53 and the hash store of C24/C54: the stores left by phase two represent the lists gathered by phase one, which the chain store of C77 uses | composition: phase one gathers exactly the hashes of the chain; the bulk-indexed store, in memory or on disk, answers as the list; negation for repeated hashes |
| C80 | The in-memory tree over a batch of hashes finds every one of them | indexedhashestree/shallowtree.go:26-272, all of it but the two-line statistics of node sizes being only a helper: the pool of nodes, the recursive generation with the choice of the byte of most entropy (any function that is zero exactly on constant columns), the 'meeting in the middle' 16-bit links with the overflow check, the lookup | recursion invariant: each made node represents (relation `Rep`) the entries passed to it whatever is appended to the pool later, nodes made + 1 ≤ entries; induction on the relation for the lookup; negation for repeated hashes with neighbours in every byte |
| C81 | The container of nodes as bytes answers as the in-memory tree | indexedhashestree/multiplefixednodesize.go:31-507, all of it: the 448 formats and their order, the choice of format, grouping, new node numbers, the four encodings, the search for a node's offset, the four decodings, the lookup with the bytes examined; offsets and numbers are natural numbers, pointers to formats are the formats | decode ∘ encode per format; groups of a sorted list are the list; offset of the k-th node by induction over the groups; simulation of the in-memory walk by induction on `Rep`, the examined bytes being the used ones; negations for padding over slot 0, level 32 and the empty batch |
| C82 | A container with only its first levels loaded gives the same answer or says so | the level offsets (216-245) and the 'not loaded' exit (381-410, 424-428) | loop invariant: the offset of a level is the size of all nodes of lower levels; slices telescope; the simulation of C81 for a prefix of the nodes |
| C83 | Sorting hashes into files with two goroutines loses none | indexedhashes/preloader.go:11-335 (all but making empty files) and `CreateHashIndexFiles` (jobs.go:13-114): the two stores with their size groups, the bits, the files (emptying and filling are two steps), the producer and the consumer as interleaved steps, the schedule also says when memory is short | an invariant over every schedule (lists and files are sublists of what belongs there); for careful schedules a second invariant (where exactly the entries of an address are) and a third (what a round begun after the last hash knows); enabledness and a decreasing measure for the end; negations: a run without shortage of memory, and two races |
| C84 | The chain of hashes keeps every hash, in order | chainstorage/concretehasheschain.go (all) and concretehasheschainfactory.go (all) over the hash files (`Verif.HashFile`, on the append-optimized file); reading of the chain by handles is taken as giving the block. Errors of the disk are C124. | Invariant by induction on any sequence of append, count and sync: each file is the hashes of the session over what was there. A first session is read back exactly (`first_session_keeps_every_hash_partial`), a stop at any moment leaves a prefix, the lists are those of C77/C79 (`files_of_phase_one`). Partial: a chain opened again counts from zero and overwrites (`reopening_overwrites`). |
| C85 | The collision-chained store still finds its hashes after being closed and opened again, however its files are kept | indexedhashes/hashstore.go (all), concretehashstorecreator.go (making and opening), memfile/fixedsize.go (all), basichashstore.go (append, get, close, sync) on the bytes of the three files, with the plain and the append-optimized hashes file and the lookup on disk or in memory; killing keeps what was given to the operating system. | Simulation: each operation on the bytes follows the one on words of C17, whose chain invariant then gives the answers; closing and opening keep the simulation (`sessions_find_all_partial`). Negative: `killed_in_memory_forgets`, `killed_unsynchronized_errs`. |
| C86 | All ways of opening a word file for reading show the same words | Model.ReadOnlyWords: memfile/filewithsize.go and mmapfile.go (reading), wordfile/concretemmapcreator.go (all), the read-only half of concretewordfilecreator.go, wordfile.go and memshadowedwordfile.go on the bytes of a file somebody else writes; wrapping int64 offsets, the read position of the os.File, panics. | an invariant of the reader over all histories in which the file only grows, against a specification of each read; composition with C02's array for the writer; negations for wrapping offsets, the second whole-file read, the mapped one and the empty file |
| C87 | The difficulty of a block is the one Bitcoin Core reports, and its stored integer the nearest | Model.Difficulty: intrinsicobjects/binaryblock.go:74-94 with the roundings where it is stored; float64 as rationals rounded to 53 bits half to even, with infinity | rounding commutes with powers of two, is monotone, idempotent and exact on 53-bit numbers (Lemmas.Difficulty); both algorithms are then one rounding of the same quotient; a quotient with a small denominator keeps away from halves |
| C88 | Every paid address of a stored chain can be asked for its outputs, from the files as they are | Model.AddressFiles: address.go (all), the address half of `appendTxo`, `AddressHandleByHeight`/`ByHash`, over the cached array store of C09/C10 in place of C37's total map (C37 says what is written; C88 what can be read) | the appends are a log of the array store, its invariant gives each array and whether its file exists; the object is an invariant over all call sequences; negation for groups whose file was never made |
| C89 | Every way of naming a block, transaction, input or output of a stored chain leads to it | Model.Handles: handles.go (all but `AddressHandle`, which is in C88), the making and resolving of handles in concretereadablechain.go, block.go and transaction.go, with every struct field and the nil pointer; expressions of a client. Not modelled: the parents of a chain still being written (never set there) | the meaning of an expression is defined on the blocks alone; induction over expressions with the invariant that a handle has the right height or parent; what the store answers is C34–C36 |
| C90 | A chain's folder: what creation makes, what opening shows | Model.ChainFactory: concreteappendablechainfactory.go in full (but the question about RAM), with the creators of word files, hash stores and the map; the folder as files by name, names as in the code. Not modelled: OS errors but a missing file, loading hashes into RAM, leaked handles; a fixed order for the loops over Go maps, which create and open the same files in every order. Partial: a creation asked for an unsupported name fails after making the chain (`failed_creation_leaves_a_chain`); `Exists` before the chain opens (`exists_before_it_opens`); no opening in RAM without inputs (`chain_without_inputs_not_in_ram`) | Exact condition for opening, by reduction to C02 and C86 for each of fifteen files; creation as a list of files made |
| C91 | Indexing again over an existing index | Model.Reindex3: `startOver` (what a new run keeps: overflow files), `Index` (both indexers from there), `Stopped` (a run ended after any number of saves). Not modelled: a stop inside one file write. Partial: `reindex_shrunk_file` | The files of the new run are those of a run in an empty folder laid over the old overflow files; a bin shows old bytes exactly when its number of distinct hashes is the room of a bin start (`reindex_bins`); induction over the history for growing files |
| C92 | A successful bulk index covers the hash file | Model.Reindex3: the hash file as bytes, the ReadFull loops of both indexers with their three outcomes, the error dropped by the adaptive one. Partial: `adaptive_hides_damaged_file` | Loop over 32-byte blocks: whole file or error; then C25 and C53 |
| C93 | A run that is killed leaves a chain that opens and shows what was synced | Model.Killed: the calls a run makes on each word file, in order, and the bytes on disk after any first part of them. Partial: `a_killed_run_leaves_no_chain` | `ingest_calls` ties the calls to the chain store; each file refines its words; length on disk of an appended file (buffers of 4096 bytes); then C90 |
| C94 | A parameter set accepted by the constructor works | Model.SensibleParams: the six ready-made sets, their choice by number of years, the tables of targets; the store is that of C24. Partial: the constructor accepts sets that do not work (`constructor_accepts_unusable`) | characterisation of the working sets: sufficiency from C24, necessity by one append of a hash chosen for the fault; capacity by the invariant of C24 |
| C95 | A cake whose process is killed opens again and goes on | Model.CakeFiles: the files of a cake, and those left at nine moments of an append that bakes. Partial: during a bake the claim is violated (`killed_in_first_bake`, `killed_before_emptying`, `killed_while_emptying`). In later bakes before the description (`PartBake`: any part of every file's new bytes) old answers are kept (`killed_in_later_bake_partial`), but it does not open while a new level's file is empty (`killed_at_new_level`), and a run shows that the bytes left spoil the next bake (`killed_bake_spoils_the_next`) | invariant of C64 for the cake before and after the append; files depend on the batches alone; `killed_bake_can_be_saved` is the repair |
| C96 | Creating a hash store gives an empty one, and it exists exactly if it opens | Model.Creators: exists, create and open of five kinds of store as one interface; Model.CakeFiles for the cake. Partial: holds for the store in memory and tier zero | one specification (`CreatesEmpty`, `ThereOpens`, `OpensThere`), proved or refuted for each; cake by the invariant of C64 |
| C97 | A self-test that passes means that the store and the file of hashes agree | Model.SelfTest3: `TestTheHashes` and `testOneHash` with the chunks read and the lines printed, over Model.HashStore3. Partial: sound for what it checks, passes on stores that disagree with the file | reading does not change answers, chunks do not matter, induction over the hashes |
| C98 | A client that reuses its receivers sees exactly the block that is held | Model.Receivers: the four `Get…Info` of intrinsicobjectschi, its handles, the receivers of chainhandleinterface, and the order of calls of `AppendBlockChi` | sending n handles appends n handles; the stored inputs and outputs are those of all transactions one after the other; induction over inputs, outputs, transactions and blocks with any receivers |
| C99 | A handle put together from parts names an input or output of its own transaction, or is refused | Model.Receivers, any handle bytes. Partial: positions that the transaction has; others give the next transaction's | exact answer to every handle |
| C100 | After a call a receiver holds only what that call sent | Model.Receivers. Partial: answered calls, fields that are sent; the rest is shown to be kept | exact answer of every call from two receiver states |
| C101 | An append that has returned has stopped working | Model.Abandon: the two goroutines of Model.ChainStoreParallel with the unbuffered channel, the early returns and panics. Partial: returns of nil and of input errors; other errors are shown to leave the goroutine running | invariant of the call over every interleaving; runs of each goroutine alone for the violation |
| C102 | The worker pool processes every task exactly once | Model.WorkerPool: clients, workers, the unbuffered channel, closing it, and the log of calls on tasks | counting invariant over every interleaving, a decreasing measure, and progress at the end |
| C103 | Walking an in-memory chain shows everything once | Model.TinyChain: package tinychain with its hard coded chain. Partial: past the end the handles do not stay invalid | induction along the walk, for every chain put together rightly; the hard coded chain is shown to be so |
| C104 | The tree of one prefix in memory | Model.SingleTreeMemory: LookupHash, the visits and the counts of singletree.go on the tree of Model.SingleTree; a leaf has the place of its entry in place of copies of its fields | induction over the tree that was built |
| C105 | An address object of a growing chain tells the outputs of now | Model.AddressSession: the address files of Model.AddressFiles written and read in turn, with any number of address objects. Partial: an object keeps its first answer | refinement: every session gives what a small view of the addresses paid so far and the first answers gives |
| C106 | The bytes of the word files of a finished chain are a function of the chain | Model.Killed (the calls on each word file), Model.ChainStore, Model.WordFile, Model.AppendOptFile: all fourteen kinds of word files, byte by byte. Not in it: the hash stores' files (C24, C79) and the files of further outputs of an address (C88) | the words of the stored state (`Closed`) rewritten from the blocks alone, and replay of the calls through the buffered file to bytes |
| C107 | Several goroutines can use one word file or hash file at once | Model.SharedFile: `ReadWordAt`, `WriteWordAt`, `ReadHashAt`, `WriteHashAt` as single byte moves through the shared scratch buffer, any number of goroutines, any interleaving and any order of bytes. Partial: the code has no lock, so the claim is false. Not in it: the races inside the append-optimised file's own buffer | under a lock: refinement to serving the calls one by one. Without: invariant that every scratch byte belongs to a record asked for; the refutations build the schedule by induction on the bytes |
| C108 | A failing disk is noticed, and synced bytes survive it | Model/FaultyFile: the append-optimised file with all its error returns, `bufio.Writer` with its sticky error, over a disk whose writes and syncs fail after any number of bytes as a list of fates says. Partial: the code violates the claim after an error | As long as answers are nil the state is the state of the error-free model (simulation), so C01 and C47 apply; an invariant (old bytes in place, appends go behind them) for what was synced; the two violations computed for all contents |
| C109 | A run that returns nil has stored its chain | Model/FaultyRun: the calls of a run (Model/Killed) on word files over failing disks (Model/FaultyFile), the job's nil, and the chain's `Close` which drops errors. Partial: the code violates the claim when a file's last flush fails | With no error the files are those of the error-free run (C108's simulation), so C93 and C106 apply; for the violation a disk is built that goes well exactly up to the last flush of the file of values, whose bytes left over are counted by C93's invariant |
| C110 | A kill inside an append harms no stored hash | Model/KilledAppend: the single `WriteAt` calls of `HashStore.AppendHash`, in order, over the files of Model/ChainedHashStore; a kill keeps any prefix of them. Partial: the code violates the claim at one moment and when going on afterwards | All writes together are the append (`writes_are_the_append`); a write over a zero word or behind the end of a file changes no successful lookup (simulation `Below`, by induction along the chain), the writes of the first collision of a key are computed under C17's invariant; the violations are computed for all parameters and hashes |
| C111 | What was stored before a session survives its being killed | Model/ChainedFiles (bytes of the three files, in-memory lookups, kill). Partial: the code violates the claim for the session's own hashes | Byte level to word level by C85's simulation; the lookup of a key with two hashes never changes again (from C110's `Below`), so the chains are entered by the old lookups; the other keys are read off C17's invariant |
| C112 | What the array store has synced survives a kill | Model/KilledSave: the caching store as a list of disk operations (make directory, empty file, write), any order of the cached files, a kill after any number of them or part way through a write, opening again. Partial: the code violates the claim for the file being written; reading a partly written file is C113 | Every call is the fold of its disk operations (`the_disk_operations_are_the_call`); invariant that each file holds the log of some moment between the last sync and now, over C10's invariant |
| C113 | An array file cut short is not taken for a whole one | Model/TornFile: `LoadFile` with the capacity of the buffer (`max 512 (length + 1)`, from the Go standard library), which slice expressions may reach; a store opened after a kill part way through a write. Partial: the code violates the claim for the last array of a file | Reading a cut array leaves nothing before the length, so the next array panics; induction over the arrays; on whole files the loader equals C08's (`whole_files_load_the_same`); the killed store by C112's invariant with the bytes of the file being written |
| C114 | No file stays open once a chain is closed or has failed to open | Model/OpenFiles: the table of open files of the process under `Create`, `CreateFromHashStores`, `Open`, `OpenReadOnly` and `Close` of a chain, with every `Close` on the error paths, the chain of hashes and the chained hash store. Not modelled: a limit on open files, finalizers, errors of `Stat`/`Close`. Partial: the code violates the claim in five places | One step "open, or close what is open and give up" with the invariant "closing the objects held leaves the table as before and `L` besides", applied along the fifteen openings; induction over the optional files; the openings are those of C90 (`the_openings_are_those_of_the_factory`) |
| C115 | A cake that is closed, or failed to open, holds no file or memory map | Model/CakeHandles: the open files and memory maps of the process under opening, appending to (with baking and the cascade through the tiers) and closing a cake, step by step as Model/Cake. Not modelled: limits on open files, finalizers, errors of `Stat`, `Seek`, `Write`, `Close`; nothing is said after a panic. Partial: the code violates the claim in three places | The table is the old one plus exactly the things of the objects held, up to order (`Inv`), kept by every step; the model with the table gives the same results as Model/Cake; for histories as in C64 every tier opened has a file for level 0, so closing succeeds; the files left while a cake is open by induction over the appends, from what becomes of the chain (`Shape`) |
| C116 | A cake never gives a wrong hash for an index, however many tiers have been filled | Model/Cake, with the write of a tier into the next (`writeBelow`) as deep as it goes. Nothing is assumed of the entropy function, the settings or the hashes; that no operation fails is a hypothesis | Invariant over all histories: the hashes are the concatenation of what the folders hold, deepest first, then the top file (`Slices`), each folder's first recorded index being the number of hashes deeper down; every open object in the chain says only what is so (`Sound`), and every index is covered by one or an earlier object panics (`Ans`); induction over the tiers for a write, over operations for a history |
| C117 | A cake has room for a fixed number of hashes, and the tier of a hash follows from their number | Model/Cake and, of DonutForest, the descriptions of forests as bytes (`infoOf`, `readForests`). Quotas are positive; that no operation fails is a hypothesis | Invariant over all histories (`Digits`): the description file of each tier is `m` records, `m` less than the quota, and its hash file `m` batches; opening counts the records; induction over the tiers for a write, then arithmetic of mixed radices |
| C118 | A failed append leaves no trace in a cake | Model/TopDisk: the top tier with its map, slice and hash counter over the file of C108 (Model/FaultyFile), opened with `O_APPEND`. Of a bake only its effect on the top tier; slices not changed by the caller. Partial: violated; proved while nothing fails | Invariant over the session (`Kept`): the file's size is that of the counted hashes and a constant rest, what waits in the buffer is whole hashes, so that a failed append takes none of its bytes, and the slice is ahead of the counter by the number of failed appends. While nothing fails, refinement to the plain file of C108 (`Same`) |
| C119 | An array store on a failing disk loses nothing without saying so, and keeps answering | Model/FaultyArrays: the caching store of C10 with a stream of outcomes for reads and one for saves (no folder, not opened, cut after any number of bytes), any order of the cached files; and the one save of the store without a cache whose result is ignored. Partial: violated for failing reads, for the loop that makes room, and for the store without a cache | C10's invariant says nothing of files that are in the cache, and failed saves touch only those; induction over the session. The loop: a refused save changes neither count nor cache. The failed read: computed for every file and array |
| C120 | A binned hash store on a failing disk keeps what it has stored | Model/BinDisk: the store of C24 with an outcome for every read and write of the bins (unreadable start, unreadable overflow file, no folder, overflow file not opened or cut after any number of bytes, start cut after any number of bytes). Partial: proved when failures come before a bin is written to; violated for unreadable overflow files and cut writes. The file of bin numbers works | C24's invariant over calls of which some failed: the bins hold the entries of those that returned nil; induction over the session. The losses: from C24's invariant after any session, the entries of the bin afterwards are computed, and an index none of them has is not found. That other bins are spared: the invariant but for a set of bins, which grows by the bin of every append that fails late |
| C121 | A binned hash store whose process is killed opens again and stays consistent | Model/BinKill: the store of C24 with one more operation, which keeps the bytes of the bin number file that have left bufio's buffer and the files of the bins, and opens the store on them. Partial: the bins keep every hash ever appended and the list of bin numbers a prefix, so indices are given twice; and the store may not open. A kill within a call (`during`, from the failing calls of C120) is treated at three moments of an append to a synced store: before the bin is written, when the overflow file has been emptied, and when it has been written and the start of the bin has not. For the other bins every moment is treated, a write cut after any number of bytes included, and any session after it (by the invariant of C120 but for one bin) | An invariant over the listed hashes, how many of them are safe, and all hashes ever appended with their indices; the length of the buffered file from C93; induction over the session. The violations: the state after any appends and a kill is computed |
| C122 | A cake tolerates repeated hashes and finds each under its first index | Model/Cake as for C64-C67; the histories are those of C64 without the condition that the hashes differ. Partial: a repeat within a batch crashes, a recent repeat is found under its last index, and filling the first tier crashes if a repeat is in it (the positive part stops short of filling it) | The invariant of C64 asks only that no full batch has a repeat, and says that the map of the top tier holds last places; the crash from C62. Induction over the history |
| C123 | A stored chain read from a failing disk gives the truth or an error | Model/FaultyReads: every reading method of block.go, transaction.go, address.go and concretereadablechain.go, each access to a word file, hash store or array store taking its outcome from a list; clients as trees of questions. One access is one call on a store; what a hash store does with errors within a call is C120. Partial: violated by the lookups by hash and by `Address.Hash` | `Reads`, a relation between a call and the right answer, is kept by sequencing; each method is built from accesses by sequencing; induction over loops and clients. The address object: an invariant over any sequence of calls |
| C124 | Gathering the hashes of a chain on a failing disk: nil means that they are stored | Model/FaultyHashes: concretehasheschain.go with every error return, and the loop and end of both variants of phase one, over the files of Model/FaultyFile. The source of the blocks gives no errors, and making and opening the files succeeds. Partial: violated by `AppendHashesChi` and by `Close` | Gathering is three lists fed one by one (`gather_iff`); a list without an error simulates C84's; a missing hash is not counted; the violations: the exact state after any number of hashes, by induction |
| C125 | Reading the file of hashes from a failing disk: nil means that all of it was read | Model/FaultyIndex: the chunk loops of the uniform indexer and of the self-test of indexedhashes3, and the `io.ReadFull` loop of indexedhashes3 through its buffer, with a fate for each read (error, or at most so many bytes). Writes, opening, and reads of other files succeed. Partial: violated by the two chunk loops | By induction on the loops, a pass that ends has read a prefix of the file, the whole file if no read failed; a bad place after n chunks equals the file cut there, through all passes, then C74 and C97; the buffer and the rest of the file are the hashes still to come |
| C126 | The parameters of a hash store are read back as they were written, or not at all | Model/ParamFile: the text `json.Marshal` makes of the two structs of parameters, a reader for objects of whole numbers (no white space, escapes, fractions or other letter case), and the files, which may not be made or be cut short. Partial: violated over an old file that cannot be written | The reader undoes the writer, by induction on digits and members; only a text with a closing brace is an object, and the written text has one, at its end |

## Known disagreements between the English property and the code

Where the code violates a property, the negation is proved with a concrete witness and the largest true part is proved under a name ending in `_partial`.  They are:

* C03 an oversized word leaves stale bytes in a shared buffer and corrupts later reads of other words.
* C09 flushing the map store fails for an array in an earlier folder that was never created.
* C10 the caching store's tally drifts upwards and a call can loop for ever.
* C14 one announcement of freed memory wakes one waiter; a second one sleeps on although memory is free.
* C17 the last possible index reads as 'not found', oversized chunks panic, one collision per chunk loses hashes.
* C18 a reopened memory-indexed store has forgotten every hash.
* C20 a bin count that is not a power of two can give a bin number out of range.
* C22 a bin lookup can miss a hash when two hashes share their sort number.
* C23 an all-zero entry at the end of a bin's fixed room is lost on load.
* C24 a store made by CreateHashStore refuses appends outside bin 0; an all-zero first hash is not found.
* C25 bulk indexing loses a hash when two hashes of a bin share their last 24 bytes or their first 8; a small memory grant divides by zero.
* C29 a 64-byte hash tree of 65 levels makes the program panic; a hash index beyond the id width is cut off, and the hash is not found.
* C30 of two or more chunks in the files only the last is read, as the first.
* C31 the unchecked writer silently changes an id out of range.
* C32 after the first bake, reading any hash of the top tier by its index panics; and a hash read by index changes when the caller reuses the array it was appended from.
* C33 a hash alone in its prefix bucket is not found, unless its bytes repeat.
* C37 (note) the number of a repeated address hash reads back as an address owning output 0.
* C39 a second chain in one process panics.
* C45 streaming the whole chain or more yields a zero hash instead of the last block's hash.
* C48 a zero-length write past the end breaks the append-optimised file.
* C49 ReadAll fails after an append.
* C51 text that is not hexadecimal is accepted as a hash.
* C52 a torn tier-zero file refuses every append.
* C53 a pass in which a worker gets no bin panics.
* C55 the index of a later occurrence of a hash gives back the zero hash.
* C56 (note) a negative integer in a 4-byte field reads back as a large positive one.
* C58 an absent hash that differs from a present one only in bytes not examined is reported at the present one's index.
* C61 a tier with a forest of more than ten levels panics when opened (level files are written under decimal and read under hexadecimal names).
* C63 in a tier with one prefix byte, nodes of different trees and formats are mixed up; in one with two, the jump table is written and read in different byte orders.
* C66 baking a batch other than the first cuts the deeper tiers off: looking up an absent hash then crashes.
* C67 recent hashes cannot be read by index once a batch is baked; an unknown index crashes after a second bake in a session.
* C68 hashes appended from one reused array are all equal when the batch is baked, and the bake crashes.
* C72 with zero workers the consumer is told that there are no blocks; otherwise (note) the pipeline cannot get stuck by itself: the run 'stuck at 87.12%' that a comment in the source mentions is not explained by it, unless a fetch never returned or the consumer stopped asking.
* C74 hashes above the last bin are left out of the index, and looking them up is an error (with the estimate of 10^9: first eight bytes at least 2^64 - 11498321).
* C75 a hash appended to a uniform hash store is never found; a store just created cannot be opened. (On POSIX systems creating it is itself an error, since the parameter file is opened for reading.)
* C76 the self test divides by zero with 1 to 99 hashes.
* C78 after a run with a block limit the latest block is the last whose hash was gathered, though nothing of it can be read; the number of transactions of the last stored block and the numbers of inputs and outputs of its last transaction are errors, because the ends are taken from the hash stores.
* C79 after a whole run the hash read for a transaction whose hash has occurred before (as twice in the main chain) is all zero.
* C80 in the in-memory tree a hash presented twice is not found (-1, though flagged as repeated) if for each of its bytes another hash of the batch differs from it exactly there.
* C81 a container made of a single hash whose first byte is zero does not contain it: a tiny node of two slots is padded with zero bytes, which are read back as an empty slot for byte value 0.
* C81 no container can be made (panic) of an empty batch, nor of one with a hash presented twice for each of whose bytes another hash differs exactly there.
* C82 with too few levels loaded, -2 ('present') is also given for hashes that are not in the batch.
* C83 sorting hashes into files writes nothing at all if memory is never short: the consumer is woken with all hashes sent and nothing done yet, so that its loop is not entered.
* C83 hashes are lost if one is handed over while the list of its address is being written: the address is then in no store and its bit is not set, so that a new list is begun which later overwrites the file.
* C83 the hashes handed over since the consumer last looked are not written if it found nothing to do then and all hashes have been sent since.
* C84 a chain of hashes that is opened again counts from zero, and what is appended overwrites its hashes from the front.
* C84 making a chain of hashes where only the file of block hashes is missing empties the files of transaction and address hashes.
* C85 a chained store whose lookup is held in memory finds none of the hashes of a session in which the program was killed, even after Sync.
* C85 a chained store with an append-optimized hashes file gives errors for the hashes lost when the program is killed without Sync: the lookup, written at once, points behind the end of the hashes.
* C86 a creator that holds files in memory can never start a word file: its own CreateWordFile makes an empty one, which cannot be mapped, and its other creating and opening calls only fail.
* C86 the whole of a word file can be read only once per opening (the second read starts at the end and fails), and never of a memory-mapped one (nil file, panic).
* C86 reading a word at an offset whose product with the word size wraps gives a word from the front instead of an error (8-byte words: offset i + 2^61 reads word i).
* C87 the integer stored for the difficulty is not always the nearest one (0x17009b48, 4.6e14, is one too high: rounded to a half as float64 and then up).
* C87 a difficulty of 2^63 or more, and that of a zero target, is stored as the least int64.
* C87 for compact targets with exponent below 3, or of value 2^1024 or more, the difficulty is not that of Bitcoin Core (low bytes dropped, zero).
* C88 an address in whose group of 100000 numbers no address is paid twice cannot be listed: the array file was never made, and reading it is an error (C37 treats the arrays as a total map, so does not show this). An output index out of range panics.
* C89 `TransactionHandleByHash` and `BlockHandleByHash` return handles without the pointer to the chain: `Hash()` of such a handle panics, though it says that it specifies a hash.
* C89 a handle of another package whose hash is unknown becomes an object for height -1 without an error; the block after the invalid block is the first block.
* C90 `Create` and `CreateFromHashStores` look at unsupported names after making the files: they return an error and leave a chain that opens (without the requested names of transactions, if the unsupported one is of blocks), and every later creation is refused.
* C90 `Exists` is true once the hash stores are made, when `Open` fails and `Create` is refused.
* C90 a chain without inputs (the first 170 blocks of Bitcoin) cannot be opened held in RAM, since mapping an empty file is an error; a file of non-essential ints that is torn is left out without an error.
* C90 if only `Blocks/firsttrans.int` is missing, `CreateFromHashStores` empties all the other files of the chain; files of unrequested names lying in the folder become part of the new chain.
* C91 the indexers make the bin starts and bin numbers anew but leave `Overflow` files of an earlier index. A bin that now has exactly as many hashes as its start holds reads the old file as its continuation: hashes no longer in the hash file are found, at indices past the end.
* C92 the adaptive indexer drops the error of its first stage: a missing hash file, or one ending inside a hash, gives success and an index in which every hash is absent.
* C93 a run killed between syncs leaves files cut at multiples of 4096 bytes, inside words of five and seven bytes: with 586 to 4096 outputs since the last sync (and most larger numbers) the folder cannot be opened by any factory, and `CreateFromHashStores` refuses because the files exist. The sync every ten thousand blocks is, by its comment, only for looking at file sizes.
- C94: `NewHashStoreParams` (indexedhashes3/params.go:27-46) accepts numbers of bins that are not powers of two, sort numbers too narrow for the bins and indices over 64 bits; with any of these some hash cannot be appended (`params_work_iff`, `constructor_accepts_unusable`). An append beyond the capacity of the index bytes panics (`capacity_is_sharp`). `Sensible16YearsBlockHashParams` uses the transactions' bits and estimate instead of the blocks' (harmless: more room).
- C95: baking is not atomic. Killed before the description of the first forest is written, the empty or half written files of `Tier0` make the cake impossible to open; killed before the top tier's file is removed, the top tier is full for ever and every append panics; killed after, `HashStoreExists` says false although the folder holds the baked hashes, and `CreateHashStore` starts again at index 0 (tiertop.go:280-337, donutforestwrite.go:28-213). Killed in a later bake before the description, the bytes left on the levels and in the jump table stay there: the next bake adds its own after them, and the description that follows makes the cake read the old ones, so that it finds hashes that were never given an index and panics for those that were.
- C96: `CreateHashStore` of the cake leaves the folders of the lower tiers, so hashes of the old cake are found in the new one (`recreated_cake_remembers`); that of the binned store makes room for one bin only, so lookups are errors (`binned_not_created`); `NewHashStoreCreatorAndPreloader` truncates `BinNums.int` (`binned_constructor_destroys`); that of the uniform store makes no `BinStarts.bst`, without which it does not open (`uniform_creator`); `HashStoreExists` looks at one file of several everywhere.
- C97: `TestTheHashes` returns nil although the store gives another hash for an index, or finds a hash under another index: both are only printed (`selftest_passes_duplicates`, `selftest_ignores_order`).
- C99: `GetTxi` and `GetTxo` add the position to the transaction's start without comparing it with the count (intrinsictransaction.go:28-33), so a handle of transaction t with position count+j gives input or output j of transaction t+1 (`part_of_next`), although handles.go:25 lets clients put handles together.
- C100: `ResetReceiver` empties the handles and the script only; the fields, hash, height and amount of the last answer stay when a call is refused (`refusal_keeps`).
- C101: when storing an output fails, `appendTransactionContents` and `…Chi` return without receiving from `myChan`: the goroutine of the inputs writes on after the return and never ends (concreteappendablechain.go:325-365, 759-788; `writes_after_return`, `goroutine_left_behind`).
- C103: of package tinychain, the block after the invalid block is the first one and the transaction before the invalid one has height -2 and passes as valid. `TheTinyChain` spends an output before it is made. Its outputs have no addresses (`Address` always gives an error), so `AppendBlock` refuses every block of it, though a test appends it (read from the code, not modelled).
- C105: an `Address` reads its outputs once (`populated`, address.go:12, 47) and never again, so it tells an old number of outputs after the chain has grown (`object_goes_stale`).
- C106: `TransactionOutputs/spenttotxi.int` is created, grown by five zero bytes for every output, synced and opened for reading, but the writes that would fill it are commented out (concreteappendablechain.go:446-459, 848-861), so it says nothing about who spends an output (`spent_to_is_blank`).
- C107: a word file and a hash file read and write through one scratch buffer per object (wordfile.go:19-20, 45, 55; hashfile.go:11, 24, 36) without a lock. Two goroutines reading one chain can get each other's words or any byte-wise mix (`any_mix_can_come_back`), and a reader can spoil what a writer stores (`a_reader_can_spoil_a_write`): `GetAsConcreteReadableChain` hands out the writer's own files.
- C108: an append to a file that fails on a full disk also throws away the up to 4096 bytes accepted before it (memfile/appendoptimized.go:66-71 drops the writer); the next `Sync` and `Close` return nil, `Size` counts the lost bytes, and repeating the append stores it where the lost bytes belonged (`a_nil_sync_after_a_loss`, `a_retry_lands_in_the_wrong_place`).
- C109: `concreteAppendableChain.Close` has no result and drops the errors of closing its files, and the jobs `return nil` after it; a disk that is full at the last flush leaves a chain without its last outputs, or one that cannot be opened, and the run reports success (`a_nil_run_may_have_stored_nothing`).
- C110: for the first collision of a key `HashStore.AppendHash` writes the lookup before the chunk it points to (hashstore.go:118-140). Killed in between, the hash stored before cannot be looked up (an error); after two more hashes with another common key it is reported absent without an error (`going_on_loses_a_stored_hash`); killed before the zeros of the chunk, the collisions file is no longer a whole number of chunks (`a_kill_puts_the_chunks_out_of_step`).
- C111: `HashStore.Sync` leaves out the lookups ("Really big so we'd rather not!", hashstore.go:397) and `fixedSizeMemFile.Sync` does nothing (memfile/fixedsize.go:47-49), so with `useMemFileForLookup` a kill after a `Sync` that returned nil makes the store forget exactly those hashes of the session whose key had fewer than two hashes before it (`the_session_is_forgotten`).
- C112: `IntArrayArray.SaveFile` uses `os.WriteFile`, which empties the file before writing it (intarrayarray.go:74). Killed in between, all `10^digitsPerFile` arrays of the file are lost, and `GetArray` and `AppendToArray` on any of them panic from then on, because `LoadFile` of an empty file indexes past its end (`a_kill_while_saving_loses_the_file`).
- C113: `buffer[ptr:ptr+byteSize]` (intarrayarray.go:105) and the slices of varint.go:23-29 may reach beyond the end of a file cut short, where the buffer holds zeros. In the last array of a file a missing byte reads as zero (`a_cut_value_is_taken_as_whole`) and a cut length as no elements (`a_cut_length_is_taken_as_empty`), without an error.
- C114: files left open. `CreateHashStore` of indexedhashes3 does not close `BinStarts.bes` (hashstorecreator.go:126-134), so creating a chain leaves three files open; `OpenHashStore` does not close it when `BinNums.int` cannot be opened (140-147); `OpenWordFile` and `OpenWordFileReadOnly` do not close a file that is not a whole number of words (concretewordfilecreator.go:82-85, 109-112), so a torn optional file stays open for good; the chain of hashes closes nothing on its error paths (concretehasheschainfactory.go:102-119); `concreteReadableChain` has no `Close` at all (`reading_again_and_again`).
- C115: `NewTierTop` does not close `Hashes.hsh` when `FirstPresentationIndex.bin` or a tier does not open, nor the tiers already open (tiertop.go:38-72), and `mmapLevelFiles` leaves the maps before an empty level file (tierbelow.go:367-396; `each_failed_open_loses_a_file`). A level without a file before the first with one is a nil map, whose `Unmap` is an error that ends `Close` (tierbelow.go:158-163; `failed_close_leaves_open`). A bake closes only the next tier of the chain and links a new one before it, so the old objects of the deeper tiers stay open until `Close`: one more for each time the first tier becomes full (`each_full_tier_leaves_a_file_open`).
- C118: `tierTop.AppendHash` puts the hash into its map and slice before it writes, and does not take it out when the write fails (tiertop.go:196-212). The hash is found until the close, and each later index is one too high: after opening again nothing is found under it (`after_a_failed_append`). A bake uses the slice for the tree and the counter of the file for the next first index (tiertop.go:290-299), so that with failures before it indexes are given twice (`an_index_given_twice`). If the append that would fill the tier fails, the next one panics (`failed_append_is_found`). When `Hashes.hsh` ends in part of a hash (a crash during a write) the next hash goes before the end of a file opened with `O_APPEND`, where `WriteAt` is refused: no append succeeds again (`torn_file_takes_nothing`).
- C119: `loadIntoCache` takes every error of `LoadFile` for a file that is not there (cachedintarraymapstore.go:80-84): after a read that fails the next `Sync` overwrites the file with the new elements only, and no call returns an error (`a_failed_read_loses_what_was_synced`). Its loop over `trimCache` does not look at the error (91-93): on a disk that refuses saves `AppendToArray` never returns (`a_refusing_disk_hangs_the_store`). `IntArrayMapStore.AppendToArray` drops the error of saving the previous file (intarraymapstore.go:71) and then the file's elements (`a_refused_save_is_not_reported`).
- C120: `loadBinFromSlice` takes every error of `os.ReadFile` for an overflow file that is not there (binfiles.go:35-38): an append during such an error returns nil and overwrites the file with its own entry, losing every hash the file held (`an_unreadable_overflow_file_is_overwritten`). `saveBinToFiles` moves the entries of a bin up in place (binfiles.go:157-161): a write cut between two entries loses a hash stored before (`a_cut_write_loses_a_stored_hash`). `AppendHash` writes the bin number first (hashstore.go:83): an append that fails is counted, and its index reads as a hash of zeros with a nil error (binbytes.go:116-132).
- C121: `AppendHash` writes the bin number through a buffer and the bin without one (hashstore.go:83 and 97). After a kill without `Sync`, `IndexOfHash` gives indices beyond `CountHashes`, and the next append gives such an index again: two hashes then have one index, and `GetHashAtIndex` of it may give the old one (`an_index_is_given_twice_after_a_kill`). Where bin numbers take three bytes, as for addresses and transactions, the buffer is written in the middle of a word, and the store cannot be opened again (`a_killed_store_cannot_be_opened`). `os.WriteFile` (binfiles.go:152) empties the overflow file before writing it, so a kill at that moment loses every hash in it, also after a `Sync` (`a_kill_within_an_append_loses_synced_hashes`).
- C122: `AppendHash` of the top tier overwrites the map entry of a repeated hash (tiertop.go:195, and on opening tiertop.go:123), so `IndexOfHash` gives its latest index and not the first (`a_recent_repeat_is_given_its_last_index`); once the batch is full the answer changes back to the first. A hash twice in one batch makes the append that fills the batch panic (`a_repeat_in_a_batch_crashes`), and no later call can prevent it (`a_repeat_dooms_the_cake`). A hash in two batches of the first tier makes the append that fills the tier panic, for the bake of the second tier has it twice (`a_repeat_in_the_first_tier_crashes`). The README promises that repeats are tolerated and that the first index is given.
- C123: `BlockHandleByHash`, `TransactionHandleByHash` and `AddressHandleByHash` drop the error of `IndexOfHash` (concretereadablechain.go:272, 288, 300), so a disk error is reported as a hash that is not in the chain (`a_failing_disk_says_a_stored_hash_is_not_found`). `Address.Hash` drops the error of `populate` (address.go:77) and gives 32 zero bytes (`a_failing_disk_gives_a_hash_of_zeros`).
- C124: `AppendHashesChi` does not look at the error of `adrHashList.AppendHash` (concretehasheschain.go:173). When one write fails, 129 address hashes are lost, all later ones move forward in the file, and every call, `Sync` and phase one return nil (`lost_addresses_are_not_reported`). `Close` (180-184) drops the errors of closing, so phase one returns nil without the last hashes (`a_refused_last_write_is_not_reported`).
- C125: `ReadIn` (indexedhashes/multipasspreloader.go:133, 144) and `TestTheHashes` (indexedhashes3/multipasspreloader.go:114, 128) drop the error of `Read`, so a place that cannot be read is the end of the file. Indexing returns nil with all later hashes missing from the index (`a_bad_place_hides_the_rest`), and the self-test passes over the rest (`a_self_test_skips_the_rest`, `an_unreadable_file_passes`).
- C126: the constructors that write the parameters drop the errors of making and writing the file (indexedhashes3/hashstorecreator.go:28-31, 53-56, indexedhashes/uniform.go:68-71). Over the file of an earlier store that cannot be written, no error is reported and the store is later opened with the old parameters (`old_parameters_are_used`); with another number of bins it then reports indexed hashes as absent (`old_parameters_lose_hashes`).
- C126: `CreateHashStore` of the uniform store writes the parameters to a file opened with `O_CREATE` alone (indexedhashes/uniform.go:129). Where such a file cannot be written, it is always an error, and the parameters that the constructor wrote are gone (`creating_takes_the_parameters`).
