{
 "claims": [
  {
   "property": "C01",
   "status": "proved",
   "theorems": [
    "Verif.AppendOpt.appendOpt_is_plain_file"
   ],
   "note": "Refinement against a plain byte list, all histories with non-empty writes (zero-length writes: C48)."
  },
  {
   "property": "C02",
   "status": "proved",
   "theorems": [
    "Verif.WordFile.wordfile_is_array"
   ],
   "note": "Fitting values (for w=8 all non-negative int64 and negatives). Oversized values: C03."
  },
  {
   "property": "C03",
   "status": "partial",
   "theorems": [
    "Verif.WordFile.oversized_write_corrupts_other_reads",
    "Verif.WordFile.write_leaves_others_partial"
   ],
   "note": "The code violates the unrestricted claim: an oversized value leaves stale bytes in the shared scratch buffer (first theorem, concrete witness). Second theorem: holds when every value fits."
  },
  {
   "property": "C04",
   "status": "proved",
   "theorems": [
    "Verif.WordFile.shadow_agrees_with_plain"
   ],
   "note": ""
  },
  {
   "property": "C05",
   "status": "proved",
   "theorems": [
    "Verif.HashFile.hashfile_is_array"
   ],
   "note": ""
  },
  {
   "property": "C06",
   "status": "proved",
   "theorems": [
    "Verif.WordFile.open_refuses_ragged",
    "Verif.WordFile.reopen_preserves",
    "Verif.WordFile.filledZeros_opens"
   ],
   "note": ""
  },
  {
   "property": "C07",
   "status": "proved",
   "theorems": [
    "Verif.VarInt.varint_roundtrip",
    "Verif.VarInt.varint_concat_injective",
    "Verif.VarInt.varint_length"
   ],
   "note": ""
  },
  {
   "property": "C08",
   "status": "proved",
   "theorems": [
    "Verif.IAA.save_load_roundtrip"
   ],
   "note": "Array lengths below 2^63 (always true of Go slices)."
  },
  {
   "property": "C09",
   "status": "partial",
   "theorems": [
    "Verif.MapStore.mapstore_keeps_everything_partial",
    "Verif.MapStore.flush_fails_for_earlier_folder"
   ],
   "note": "Full claim is false of the code (second theorem, witness). First theorem: all histories in which folders are first used in increasing order."
  },
  {
   "property": "C10",
   "status": "partial",
   "theorems": [
    "Verif.CachedMapStore.cached_store_keeps_everything_partial",
    "Verif.CachedMapStore.cached_store_below_limit_partial",
    "Verif.CachedMapStore.cached_count_bounds_held_partial",
    "Verif.CachedMapStore.cached_count_drifts",
    "Verif.CachedMapStore.cached_store_hangs"
   ],
   "note": "Contents are right for every session that returns, and every session with fewer appends than the limit returns; the tally is wrong (drifts up) and for every limit a session exists in which a call never returns."
  },
  {
   "property": "C11",
   "status": "proved",
   "theorems": [
    "Verif.NumberedFolders.same_file_iff",
    "Verif.NumberedFolders.fileNum_is_rounded"
   ],
   "note": "Digits per folder > 0 (with 0 the Go loop does not terminate)."
  },
  {
   "property": "C12",
   "status": "proved",
   "theorems": [
    "Verif.Sequencer.sequencer_in_order",
    "Verif.Sequencer.sequencer_close"
   ],
   "note": "All arrival orders of items with distinct numbers >= first. Assumes bloatedCount >= 1 (shared invariant with C13)."
  },
  {
   "property": "C13",
   "status": "proved",
   "theorems": [
    "Verif.Sequencer.bloated_iff_backlog"
   ],
   "note": "Every arrival order, every limit >= 1."
  },
  {
   "property": "C14",
   "status": "partial",
   "theorems": [
    "Verif.MemBlocker.admitted_only_below_limit",
    "Verif.MemBlocker.freeing_excludes",
    "Verif.MemBlocker.signal_wakes_first",
    "Verif.MemBlocker.sleeper_left_behind",
    "Verif.MemBlocker.no_lost_wakeup_partial",
    "Verif.MemBlocker.not_stuck_asleep_partial"
   ],
   "note": "Safety for all schedules; liveness proved for a single waiter and disproved for two (sleeper_left_behind)."
  },
  {
   "property": "C15",
   "status": "proved",
   "theorems": [
    "Verif.Hex.hex_roundtrip",
    "Verif.Hex.hex_is_reversed_digits",
    "Verif.Hex.hex_injective",
    "Verif.Hex.hex_wrong_length"
   ],
   "note": "All 32-byte hashes, both decoders."
  },
  {
   "property": "C16",
   "status": "proved",
   "theorems": [
    "Verif.HashStores.basic_store_is_list",
    "Verif.HashStores.firstIndex_at",
    "Verif.HashStores.firstIndex_absent"
   ],
   "note": "All sessions over all whole files, on top of the append-optimised hash-file model."
  },
  {
   "property": "C17",
   "status": "partial",
   "theorems": [
    "Verif.ChainedHashStore.chained_store_finds_all_partial",
    "Verif.ChainedHashStore.chained_store_index_partial",
    "Verif.ChainedHashStore.last_index_is_not_found",
    "Verif.ChainedHashStore.allowed_parameters_panic",
    "Verif.ChainedHashStore.one_per_chunk_loses_hashes"
   ],
   "note": "Full claim for entry widths 1-7, chunk sizes 2-8 within the zero buffer and fewer hashes than the top bit; the negative theorems show the code breaks outside that (last index, oversized chunk, one collision per chunk)."
  },
  {
   "property": "C18",
   "status": "partial",
   "theorems": [
    "Verif.HashStores.memindexed_session_partial",
    "Verif.HashStores.memindexed_reopen_forgets"
   ],
   "note": "Proved for one session on an empty store; the code violates the reopen claim for every non-empty file (memindexed_reopen_forgets)."
  },
  {
   "property": "C19",
   "status": "proved",
   "theorems": [
    "Verif.HashStores.tierzero_is_list",
    "Verif.HashStores.lastIndex_at",
    "Verif.HashStores.lastIndex_absent"
   ],
   "note": "All histories with reopen points."
  },
  {
   "property": "C20",
   "status": "proved",
   "theorems": [
    "Verif.Bins.bin_in_range_iff",
    "Verif.Bins.hash_reconstructed",
    "Verif.Bins.split_injective",
    "Verif.Bins.bin_num_fits_word"
   ],
   "note": "bin_in_range_iff: every hash gets a valid bin exactly when the bin count is a power of two."
  },
  {
   "property": "C21",
   "status": "proved",
   "theorems": [
    "Verif.Bins.entry_roundtrip",
    "Verif.Bins.sensible_params_never_panic"
   ],
   "note": ""
  },
  {
   "property": "C22",
   "status": "partial",
   "theorems": [
    "Verif.Bins.bin_holds_insertions",
    "Verif.Bins.bin_lookup_sound",
    "Verif.Bins.bin_lookup_by_index",
    "Verif.Bins.bin_lookup_complete_partial",
    "Verif.Bins.bin_lookup_misses"
   ],
   "note": "Order, contents and soundness hold for every history. Completeness is false in the code when two hashes share a sort number (bin_lookup_misses); proved for distinct sort numbers. Float64 is any rounding with relative error at most 2^-53."
  },
  {
   "property": "C23",
   "status": "proved",
   "theorems": [
    "Verif.Bins.zero_scan_exact",
    "Verif.Bins.saved_bins_load",
    "Verif.Bins.zero_entry_lost"
   ],
   "note": ""
  },
  {
   "property": "C24",
   "status": "partial",
   "theorems": [
    "Verif.HashStore3.binned_store_partial",
    "Verif.HashStore3.created_store_rejects_appends",
    "Verif.HashStore3.zero_hash_not_found"
   ],
   "note": "Proved for every session (append, lookup, read, count, sync, reopen) on preloader-made files when no two different appended hashes share their first 8 bytes and the first hash is not an all-zero entry. The code violates the property otherwise: negations proved, including that stores made by CreateHashStore reject appends outside bin 0 while counting them."
  },
  {
   "property": "C25",
   "status": "partial",
   "theorems": [
    "Verif.Bulk3.bulk_first_occurrence_partial",
    "Verif.Bulk3.bulk_no_deadlock",
    "Verif.Bulk3.bulk_completes",
    "Verif.Bulk3.bulk_small_grant_panics",
    "Verif.Bulk3.bulk_drops_same_tail",
    "Verif.Bulk3.bulk_loses_hash",
    "Verif.Bulk3.plan_covers"
   ],
   "note": "Proved for every schedule of the reader, worker and sorting goroutines and every plan of passes, for lists in which no two different hashes share their first 8 bytes or (within a bin) their last 24 bytes, and the first hash is not encoded as zero. The full claim is false: bulk_drops_same_tail and bulk_loses_hash give lists where a hash is lost after every run, bulk_small_grant_panics a division by zero."
  },
  {
   "property": "C26",
   "status": "proved",
   "theorems": [
    "Verif.ShallowTree.tree_finds_every_hash",
    "Verif.ShallowTree.tree_match_is_plausible",
    "Verif.ShallowTree.tree_made_iff_no_duplicates"
   ],
   "note": "For every list of equal-length hashes; entropy is an arbitrary function that is zero exactly when all hashes agree on the byte."
  },
  {
   "property": "C27",
   "status": "proved",
   "theorems": [
    "Verif.Chunk.formats_are_chosen",
    "Verif.Chunk.chosen_formats_are_suitable"
   ],
   "note": "for all level shapes and limits of at least five formats (fewer make the program panic)"
  },
  {
   "property": "C28",
   "status": "proved",
   "theorems": [
    "Verif.Chunk.ids_locate_nodes"
   ],
   "note": "for all levels whose nodes can be numbered in the id width and whose bytes can be counted in 32 bits"
  },
  {
   "property": "C29",
   "status": "proved",
   "theorems": [
    "Verif.Chunk.bytes_agree_with_tree",
    "Verif.Chunk.sixty_five_levels_panic",
    "Verif.Chunk.id_truncated"
   ],
   "note": "at most 64 levels and ids within their width; both limits shown to be real"
  },
  {
   "property": "C30",
   "status": "partial",
   "theorems": [
    "Verif.Chunk.chunk_comes_back_partial",
    "Verif.Chunk.last_chunk_comes_first",
    "Verif.Chunk.two_chunks_do_not_come_back",
    "Verif.Chunk.stored_chunk_finds_every_hash"
   ],
   "note": "Holds for at most one chunk, also end to end (hashes to chunk to files to chunk to index). For two or more the code is wrong: what is read instead is given exactly, for every list of chunks, and the full statement is refuted for all of them whose second chunk has levels."
  },
  {
   "property": "C31",
   "status": "proved",
   "theorems": [
    "Verif.IdFormats.checked_roundtrip_or_reject",
    "Verif.IdFormats.unchecked_truncates",
    "Verif.IdFormats.unchecked_is_leEnc"
   ],
   "note": "All four formats, all three id types, every id. The unchecked writer is shown to round-trip exactly the ids in range."
  },
  {
   "property": "C32",
   "status": "partial",
   "theorems": [
    "Verif.TierTop.append_numbers_in_order",
    "Verif.TierTop.top_finds_latest_index",
    "Verif.TierTop.top_returns_hash_at_index_partial",
    "Verif.TierTop.top_unreadable_after_bake",
    "Verif.TierTop.appended_hash_changes_with_callers_memory"
   ],
   "note": "Numbering and lookup by hash proved for every history. Reading by index proved before the first bake with the caller's memory left alone; proved false after it (panics), and proved to follow later writes to the caller's array."
  },
  {
   "property": "C33",
   "status": "partial",
   "theorems": [
    "Verif.SingleTree.bucket_finds_every_hash_partial",
    "Verif.SingleTree.lone_hash_found_iff",
    "Verif.SingleTree.lone_hash_lost"
   ],
   "note": "At the level of the tree. The claim is false for a lone hash with a prefix: the exact condition under which it is found is proved. Proved for all other buckets."
  },
  {
   "property": "C34",
   "status": "proved",
   "theorems": [
    "Verif.ChainStore.blocks_partition_transactions"
   ],
   "note": "For every chain satisfying Good (>=1 transaction per block, distinct hashes, references backwards), all three interfaces and own/delegated indexing."
  },
  {
   "property": "C35",
   "status": "proved",
   "theorems": [
    "Verif.ChainStore.transactions_keep_inputs_outputs"
   ],
   "note": ""
  },
  {
   "property": "C36",
   "status": "proved",
   "theorems": [
    "Verif.ChainStore.input_resolves_to_spent_output"
   ],
   "note": ""
  },
  {
   "property": "C37",
   "status": "proved",
   "theorems": [
    "Verif.ChainStore.address_lists_its_outputs",
    "Verif.ChainStore.repeated_address_number_owns_output_zero"
   ],
   "note": "The second theorem records that a number of a repeated address hash (which the stores skip) reads back as owning output 0."
  },
  {
   "property": "C38",
   "status": "proved",
   "theorems": [
    "Verif.ChainStore.parallel_contents",
    "Verif.ChainStore.parallel_contents_ends",
    "Verif.ChainStore.step_decreases"
   ],
   "note": "Each access to a file is one step; all interleavings of the two goroutines."
  },
  {
   "property": "C39",
   "status": "partial",
   "theorems": [
    "Verif.ChainStore.second_chain_partial",
    "Verif.ChainStore.second_chain_panics"
   ],
   "note": "The code violates the property: after a first chain of more than one transaction any second chain panics (second_chain_panics); the partial theorem covers first chains of one transaction."
  },
  {
   "property": "C40",
   "status": "proved",
   "theorems": [
    "Verif.ChainStore.navigation"
   ],
   "note": ""
  },
  {
   "property": "C41",
   "status": "proved",
   "theorems": [
    "Verif.BinBlock.block_recovered",
    "Verif.BinBlock.transaction_recovered",
    "Verif.BinBlock.block_consumed",
    "Verif.BinBlock.count_recovered"
   ],
   "note": "For every block whose serialization is shorter than 2^31 bytes (script positions are int32 in the code), every transaction having at least one input and amounts below 2^63. Counts below 2^64 in count_recovered. sha is arbitrary."
  },
  {
   "property": "C42",
   "status": "proved",
   "theorems": [
    "Verif.BinBlock.txid_stripped",
    "Verif.BinBlock.txid_ignores_witness"
   ],
   "note": "For every hash function; same bounds as C41."
  },
  {
   "property": "C43",
   "status": "proved",
   "theorems": [
    "Verif.BinBlock.transaction_sizes",
    "Verif.BinBlock.block_sizes"
   ],
   "note": "Same bounds as C41."
  },
  {
   "property": "C44",
   "status": "proved",
   "theorems": [
    "Verif.BlockHolder.cri_median_time",
    "Verif.BlockHolder.chi_median_time",
    "Verif.BlockHolder.upperMedian_unique"
   ],
   "note": "Both holders, every stream and every sequence of calls; sort.Slice assumed to sort."
  },
  {
   "property": "C45",
   "status": "proved",
   "theorems": [
    "Verif.HashStream.stream_in_order",
    "Verif.HashStream.stream_requests",
    "Verif.HashStream.short_chain_zero_hash"
   ],
   "note": "For every node serving any chain and every N below the chain's length (block N must exist, since hashes are read from the next header). short_chain_zero_hash: asking for the whole chain or more gives a zero hash instead of the last block's hash (last block number not a positive multiple of 1000)."
  },
  {
   "property": "C46",
   "status": "proved",
   "theorems": [
    "Verif.BlockHolder.cri_blocks_in_sequence",
    "Verif.BlockHolder.chi_blocks_in_sequence",
    "Verif.BlockHolder.cri_heights_consecutive",
    "Verif.BlockHolder.chi_heights_consecutive",
    "Verif.BlockHolder.cri_rejects",
    "Verif.BlockHolder.not_chain_of_prev",
    "Verif.BlockHolder.chi_rejects",
    "Verif.BlockHolder.chi_rejects_first",
    "Verif.BlockHolder.cri_delivers"
   ],
   "note": "Every stream (nil blocks included), every sequence of calls with any handles until the first panic or error, every transaction indexer (also one that fails). Delivery in full is proved for the cri holder."
  },
  {
   "property": "C47",
   "status": "proved",
   "theorems": [
    "Verif.AppendOpt.crash_loses_only_a_tail",
    "Verif.AppendOpt.sync_makes_durable"
   ],
   "note": "Disk here means what the process handed to the OS; OS page cache loss is not modelled. Non-empty writes."
  },
  {
   "property": "C48",
   "status": "partial",
   "theorems": [
    "Verif.AppendOpt.zero_length_write_breaks_file",
    "Verif.AppendOpt.zero_length_write_partial"
   ],
   "note": "Violated when the offset is past the end (first theorem); holds when every zero-length write is at or below the end (second)."
  },
  {
   "property": "C49",
   "status": "partial",
   "theorems": [
    "Verif.AppendOpt.readAll_fails_after_append",
    "Verif.AppendOpt.readAll_without_append_partial"
   ],
   "note": "Violated after an append (first theorem, witness); holds for histories without an append at the exact end (second)."
  },
  {
   "property": "C50",
   "status": "proved",
   "theorems": [
    "Verif.Sequencer.pipeline_never_deadlocks",
    "Verif.Sequencer.pipeline_schedules_bounded"
   ],
   "note": "Producer, pool and sequencer as a step machine; all schedules."
  },
  {
   "property": "C51",
   "status": "partial",
   "theorems": [
    "Verif.Hex.hex_decode_exact_partial",
    "Verif.Hex.nonhex_accepted"
   ],
   "note": "Exactness for hex digits; nonhex_accepted shows the refusal is missing in the code."
  },
  {
   "property": "C52",
   "status": "partial",
   "theorems": [
    "Verif.HashStores.tierzero_torn_file_refuses"
   ],
   "note": "The code violates this for every torn file; the theorem is the negation, universally quantified. The whole-file case is C19."
  },
  {
   "property": "C53",
   "status": "partial",
   "theorems": [
    "Verif.Adaptive3.adaptive_passes",
    "Verif.Adaptive3.adaptive_first_occurrence_partial",
    "Verif.Adaptive3.adaptive_get_first_partial",
    "Verif.Adaptive3.adaptive_no_deadlock",
    "Verif.Adaptive3.adaptive_pass_completes_iff",
    "Verif.Adaptive3.adaptive_pass_completes",
    "Verif.Adaptive3.adaptive_completes_iff",
    "Verif.Adaptive3.adaptive_completes",
    "Verif.Adaptive3.adaptive_few_bins_panics",
    "Verif.Adaptive3.adaptive_few_used_bins_panics"
   ],
   "note": "Passes partition the bins within the budget; a completed run gives the first occurrence for any schedule (hashes without shared 8-byte prefix or shared bin and tail). A run completes exactly if every worker gets a bin in every pass; otherwise the reader closes an already closed channel and panics (proved, including for an empty file with two threads)."
  },
  {
   "property": "C54",
   "status": "proved",
   "theorems": [
    "Verif.Bins.load_all_agrees",
    "Verif.HashStore3.ram_store_agrees"
   ],
   "note": ""
  },
  {
   "property": "C55",
   "status": "partial",
   "theorems": [
    "Verif.Bulk3.bulk_get_first_partial",
    "Verif.Bulk3.bulk_get_duplicate_is_zero"
   ],
   "note": "Holds for indices that are the first occurrence of their hash; for every later occurrence the code returns the all-zero hash (proved)."
  },
  {
   "property": "C56",
   "status": "proved",
   "theorems": [
    "Verif.ChainStore.non_essential_ints_read_back"
   ],
   "note": ""
  },
  {
   "property": "C57",
   "status": "proved",
   "theorems": [
    "Verif.Chunk.chunk_finds_every_hash",
    "Verif.Chunk.chunk_of_65534_finds_every_hash",
    "Verif.Chunk.chunk_match_is_plausible"
   ],
   "note": "end to end from hashes to bytes and back"
  },
  {
   "property": "C58",
   "status": "partial",
   "theorems": [
    "Verif.DonutForest.tier_lookup_partial",
    "Verif.DonutForest.tier_exact_if_all_reassured_partial",
    "Verif.DonutForest.one_byte_off_is_found",
    "Verif.DonutForest.opened_tier_is_not_exact"
   ],
   "note": "Lookup never panics and never misses a present hash except for a plausible other one; exact if every byte is reassured. With at least ten reassurance bytes fewer than bytes no opened tier is exact (proved)."
  },
  {
   "property": "C59",
   "status": "proved",
   "theorems": [
    "Verif.DonutForest.tier_hash_at_index"
   ],
   "note": ""
  },
  {
   "property": "C60",
   "status": "proved",
   "theorems": [
    "Verif.DonutForest.tier_gives_back_all_hashes"
   ],
   "note": "For the tier without prefix bytes, as the statement says."
  },
  {
   "property": "C61",
   "status": "partial",
   "theorems": [
    "Verif.DonutForest.tier_opens_if_shallow_partial",
    "Verif.DonutForest.small_tier_opens_partial",
    "Verif.DonutForest.deep_forest_cannot_be_opened",
    "Verif.DonutForest.tier_opens_if_spread_partial"
   ],
   "note": "Exact condition: quota kept and no forest of more than ten levels. False in general (proved): level files from the eleventh on are looked for under hexadecimal names."
  },
  {
   "property": "C62",
   "status": "proved",
   "theorems": [
    "Verif.DonutForest.bake_panics_iff_duplicates"
   ],
   "note": ""
  },
  {
   "property": "C63",
   "status": "partial",
   "theorems": [
    "Verif.DonutForest.two_buckets_mixed_up",
    "Verif.DonutForest.two_prefix_bytes_swapped",
    "Verif.Cake.cascade_loses_hashes",
    "Verif.Cake.cascade_not_yet",
    "Verif.Cake.every_bucket_is_taken_out"
   ],
   "note": "False: for one prefix byte, three hashes in two buckets make lookups panic; for two, every hash whose swapped prefix has no hash is lost. C33 has the tree of one bucket. A concrete run shows it on the whole cake (cascade_loses_hashes). Emptying a tier does read every bucket once and in order (every_bucket_is_taken_out); it is the reading of a bucket that is wrong."
  },
  {
   "property": "C64",
   "status": "partial",
   "theorems": [
    "Verif.Cake.appends_in_order_partial",
    "Verif.Cake.every_append_is_numbered"
   ],
   "note": "Proved for different hashes, while the first tier's quota of batches is not exceeded, and if no two hashes of a batch agree in nine or more places (else C61's fault crashes the bake); the deeper tiers fail anyway (C63). Without any of these limits every successful append is given its position (every_append_is_numbered)."
  },
  {
   "property": "C65",
   "status": "partial",
   "theorems": [
    "Verif.Cake.appended_hash_is_found_partial",
    "Verif.Cake.lookups_exact_if_all_reassured_partial",
    "Verif.Cake.cascade_loses_hashes"
   ],
   "note": "An appended hash is found, under its own index or an earlier one whose hash it agrees with in every byte the tree examines; exact if every byte is reassured and no non-first batch has been baked since opening (else C66). The false positives are C58's. Once the first tier is emptied into one with a prefix byte appended hashes are lost (cascade_loses_hashes)."
  },
  {
   "property": "C66",
   "status": "partial",
   "theorems": [
    "Verif.Cake.no_lookup_crashes_partial",
    "Verif.Cake.absent_hash_crashes",
    "Verif.Cake.bake_cuts_off_deeper_tiers"
   ],
   "note": "Holds until a batch other than the first is baked in a session. After that looking up an absent hash crashes (proved for every such history), because the tiers below the first are cut off from the chain."
  },
  {
   "property": "C67",
   "status": "partial",
   "theorems": [
    "Verif.Cake.hash_at_index_partial",
    "Verif.Cake.recent_hash_unreadable",
    "Verif.Cake.unknown_index_crashes",
    "Verif.Cake.never_a_wrong_hash",
    "Verif.Cake.reopened_cake_gives_every_hash"
   ],
   "note": "Holds for baked hashes, and for all before the first bake. Recent hashes are unreadable once a batch has been baked; an unknown index crashes after a second one in a session. However many tiers have been filled, no wrong hash is ever given, and after a reopening every hash is there (never_a_wrong_hash, reopened_cake_gives_every_hash)."
  },
  {
   "property": "C68",
   "status": "partial",
   "theorems": [
    "Verif.Cake.reused_slice_crashes"
   ],
   "note": "Violated: filling a batch from one reused array of two or more hashes crashes at the bake, for every such batch. With slices of their own C64 holds."
  },
  {
   "property": "C69",
   "status": "proved",
   "theorems": [
    "Verif.JsonBlock.json_equals_binary",
    "Verif.JsonBlock.json_block_recovered"
   ],
   "note": "encoding/json itself is not modelled: the input is the decoded struct. Difficulty is not modelled."
  },
  {
   "property": "C70",
   "status": "proved",
   "theorems": [
    "Verif.JsonBlock.amount_exact"
   ],
   "note": "float64 is any rounding with relative error at most 2^-53."
  },
  {
   "property": "C71",
   "status": "proved",
   "theorems": [
    "Verif.JsonBlock.fetch_first_good",
    "Verif.JsonBlock.fetch_panics_iff",
    "Verif.JsonBlock.fetch_describes",
    "Verif.JsonBlock.accepted_iff",
    "Verif.JsonBlock.leftovers_harmless",
    "Verif.JsonBlock.fetch_binary"
   ],
   "note": "accepted_iff says which JSON counts as a block (hash text is checked only for its length). In binary mode a body that is not a block crashes at once instead of being retried; fetch_binary says so."
  },
  {
   "property": "C72",
   "status": "proved",
   "theorems": [
    "Verif.Pipeline.received_in_order",
    "Verif.Pipeline.finished_complete",
    "Verif.Pipeline.never_stuck",
    "Verif.Pipeline.crash_only_fetch",
    "Verif.Pipeline.runs_end",
    "Verif.Pipeline.carries_on",
    "Verif.Pipeline.all_delivered",
    "Verif.Pipeline.no_workers"
   ],
   "note": "Step machine of all goroutines with unbuffered channels; the consumer is assumed to keep receiving until it is told there are no more."
  },
  {
   "property": "C73",
   "status": "proved",
   "theorems": [
    "Verif.Pipeline.on_the_way",
    "Verif.Pipeline.put_aside"
   ],
   "note": "Same machine; for a limit of at least 1 (the code uses 100)."
  },
  {
   "property": "C74",
   "status": "partial",
   "theorems": [
    "Verif.Uniform.lookup_first_partial",
    "Verif.Uniform.indexing_succeeds",
    "Verif.Uniform.no_memory",
    "Verif.Uniform.beyond_last_bin",
    "Verif.Uniform.bins_made",
    "Verif.Uniform.billion"
   ],
   "note": "Lookup proved for all hashes whose bin is made; the code leaves out the hashes above the last bin (negation proved, with the exact set for the project's estimate)."
  },
  {
   "property": "C75",
   "status": "partial",
   "theorems": [
    "Verif.Uniform.appended_not_found",
    "Verif.Uniform.new_hash_not_found",
    "Verif.Uniform.created_does_not_open",
    "Verif.Uniform.failed_append"
   ],
   "note": "The property is false of the code; proved: the exact answers after appends, and that appended hashes are stored in order."
  },
  {
   "property": "C76",
   "status": "partial",
   "theorems": [
    "Verif.Uniform.self_test",
    "Verif.Uniform.self_test_small",
    "Verif.Uniform.self_test_empty"
   ],
   "note": "Proved for 0 and for 100 or more hashes; for 1 to 99 the code panics (proved)."
  },
  {
   "property": "C77",
   "status": "proved",
   "theorems": [
    "Verif.Run.whole_run",
    "Verif.Run.delivery_happens",
    "Verif.Run.same_whatever_schedule"
   ],
   "note": "Phase two is taken to give stores that find the first occurrence of a hash (C25 says when); difficulty is any function of nBits that fits 64 bits."
  },
  {
   "property": "C78",
   "status": "partial",
   "theorems": [
    "Verif.ChainStore.limited_store_partial",
    "Verif.ChainStore.limited_store_end",
    "Verif.Run.limited_run_partial",
    "Verif.Run.limited_run_end"
   ],
   "note": "Proved but for the number of transactions of the last stored block, the numbers of inputs and outputs of the last stored transaction, and the latest block: these the code gets wrong when m < n (proved: errors, and the latest block is n-1, of which nothing can be read)."
  },
  {
   "property": "C79",
   "status": "partial",
   "theorems": [
    "Verif.Run.whole_run_indexed_partial",
    "Verif.Run.phase_one",
    "Verif.Run.phase_two",
    "Verif.Run.repeated_transaction_hash_is_zero"
   ],
   "note": "Proved but for the hash read for a transaction whose hash has occurred before: the code gives the all-zero hash (proved; the main chain has two such transactions)."
  },
  {
   "property": "C80",
   "status": "partial",
   "theorems": [
    "Verif.HashTree.pool_finds_every_hash_partial",
    "Verif.HashTree.pool_answer_is_plausible",
    "Verif.HashTree.repeated_hash_is_lost",
    "Verif.HashTree.lost_batch",
    "Verif.HashTree.pool_overflow",
    "Verif.HashTree.empty_pool_finds_nothing"
   ],
   "note": "Proved but for a hash that was presented more than once while another one of the batch differs from it in exactly one byte: with such a neighbour for each of the 32 bytes the hash is not found (proved, with a batch of 34 hashes)."
  },
  {
   "property": "C81",
   "status": "partial",
   "theorems": [
    "Verif.HashTree.container_answers_partial",
    "Verif.HashTree.room_of_length",
    "Verif.HashTree.lone_zero_is_lost",
    "Verif.HashTree.repeated_hash_cannot_be_written",
    "Verif.HashTree.empty_cannot_be_written"
   ],
   "note": "Proved but for three cases: a single hash that begins with a zero byte is lost (proved); a hash that was presented more than once while another differs from it in one byte (proved: with such a neighbour for each byte no container can be made); an empty batch (proved: panic). For batches of more than 32768 hashes that do not overflow, it is proved when nodes and hashes together are below 65536."
  },
  {
   "property": "C82",
   "status": "partial",
   "theorems": [
    "Verif.HashTree.levels_loaded_partial",
    "Verif.HashTree.absent_reported_as_present"
   ],
   "note": "Proved but for the last clause (the code also says -2 for hashes that are not in the batch, proved) and the exceptions of C81."
  },
  {
   "property": "C83",
   "status": "partial",
   "theorems": [
    "Verif.PreLoad.every_hash_filed_partial",
    "Verif.PreLoad.only_right_records",
    "Verif.PreLoad.never_stuck",
    "Verif.PreLoad.nothing_written_if_memory_suffices",
    "Verif.PreLoad.first_hash_lost",
    "Verif.PreLoad.last_hash_left_behind"
   ],
   "note": "The full claim is false: proved for careful schedules (no look for a file while it is being written, no stop after an early round); safety, progress and the end for every schedule; the three ways of losing hashes are proved."
  },
  {
   "property": "C84",
   "status": "partial",
   "theorems": [
    "Verif.HashesChain.session_exact",
    "Verif.HashesChain.first_session_keeps_every_hash_partial",
    "Verif.HashesChain.files_of_phase_one",
    "Verif.HashesChain.stop_loses_only_the_end",
    "Verif.HashesChain.synchronized_is_durable",
    "Verif.HashesChain.reopening_overwrites"
   ],
   "note": "Proved for a first session, and exactly what any session leaves; a chain opened again counts from zero and overwrites its hashes, which is proved too. Disk errors are C124."
  },
  {
   "property": "C85",
   "status": "partial",
   "theorems": [
    "Verif.ChainedFiles.sessions_find_all_partial",
    "Verif.ChainedFiles.killed_in_memory_forgets",
    "Verif.ChainedFiles.killed_unsynchronized_errs"
   ],
   "note": "Proved on the bytes of the files for all sessions with safe kills and the parameters of C17; the two kinds of unsafe kill are proved to lose hashes. Errors of the disk and stops of the whole machine are not modelled."
  },
  {
   "property": "C86",
   "status": "partial",
   "theorems": [
    "Verif.ROWords.readers_keep_the_words",
    "Verif.ROWords.reads_exact_partial",
    "Verif.ROWords.opens_iff",
    "Verif.ROWords.written_is_read",
    "Verif.ROWords.far_offsets_read_as_near",
    "Verif.ROWords.whole_first_partial",
    "Verif.ROWords.whole_only_once",
    "Verif.ROWords.whole_of_mapped_panics",
    "Verif.ROWords.held_in_ram_never_opens"
   ],
   "note": "Proved for every word inside the file, and exactly for every offset whose product with the word size does not wrap; the whole file only for the first reading of an unmapped file. The wrapping, the second reading, the mapped reading and the empty file are proved to go wrong. A file that shrinks under a map and errors of the disk are not modelled."
  },
  {
   "property": "C87",
   "status": "partial",
   "theorems": [
    "Verif.Difficulty.difficulty_accurate",
    "Verif.Difficulty.difficulty_is_cores_partial",
    "Verif.Difficulty.harder_not_smaller",
    "Verif.Difficulty.stored_fits",
    "Verif.Difficulty.stored_near",
    "Verif.Difficulty.stored_is_nearest_partial",
    "Verif.Difficulty.stored_can_be_off_by_one",
    "Verif.Difficulty.huge_target_gives_zero",
    "Verif.Difficulty.tiny_exponent_differs",
    "Verif.Difficulty.very_hard_is_stored_as_least"
   ],
   "note": "Exact float64 arithmetic (53 bits, half to even, infinity), no subnormal numbers occur. Bitcoin Core's algorithm is the specification. Conversion of a too large float to int64 is that of amd64."
  },
  {
   "property": "C88",
   "status": "partial",
   "theorems": [
    "Verif.AddressFiles.address_answers_partial",
    "Verif.AddressFiles.unpaired_address_is_an_error",
    "Verif.AddressFiles.no_address_listed_before_the_first_repeat",
    "Verif.AddressFiles.address_index_out_of_range_panics",
    "Verif.AddressFiles.unknown_address"
   ],
   "note": "Proved for every address that shares its hundred thousand numbers with an address paid twice, over the real cached array store; for all other addresses the negation is proved (an error although the address is paid). Chains with 1.6e9 or more repeated payments meet the cache limit of C10."
  },
  {
   "property": "C89",
   "status": "partial",
   "theorems": [
    "Verif.Handles.names_lead_to_their_meaning_partial",
    "Verif.Handles.handle_by_hash_panics",
    "Verif.Handles.unknown_hash",
    "Verif.Handles.ends_of_the_chain",
    "Verif.Handles.unspecified_parent_panics"
   ],
   "note": "Proved for all expressions by induction over them, but for the hash through a handle just looked up by hash (a nil dereference, proved) and the hash of a transaction whose hash has occurred before (C79). Negations proved for unknown hashes in foreign handles and for the block after the invalid one."
  },
  {
   "property": "C90",
   "status": "partial",
   "theorems": [
    "Verif.ChainFactory.factory_needs_the_parameters",
    "Verif.ChainFactory.open_shows_the_files",
    "Verif.ChainFactory.open_read_only_shows_the_files",
    "Verif.ChainFactory.open_in_ram",
    "Verif.ChainFactory.creation_never_touches_a_chain",
    "Verif.ChainFactory.creation_from_hash_stores_partial",
    "Verif.ChainFactory.created_chain_has_the_requested_names",
    "Verif.ChainFactory.creation",
    "Verif.ChainFactory.failed_creation_leaves_a_chain",
    "Verif.ChainFactory.exists_before_it_opens",
    "Verif.ChainFactory.chain_without_inputs_not_in_ram"
   ],
   "note": "Exact for opening. For creation the code violates the claim when a name is unsupported (failed_creation_leaves_a_chain); Exists and RAM opening violate it too (exists_before_it_opens, chain_without_inputs_not_in_ram)."
  },
  {
   "property": "C91",
   "status": "partial",
   "theorems": [
    "Verif.Reindex3.reindex_bins",
    "Verif.Reindex3.reindex_grown_partial",
    "Verif.Reindex3.reindex_shrunk_file",
    "Verif.Reindex3.reindex_completes"
   ],
   "note": "Exact content of every bin after re-indexing over any leftovers; the full claim for all histories of complete and interrupted runs on a growing file. For a file that has shrunk the code violates the claim (reindex_shrunk_file)."
  },
  {
   "property": "C92",
   "status": "partial",
   "theorems": [
    "Verif.Reindex3.multi_success_means_indexed",
    "Verif.Reindex3.adaptive_success_whole_file_partial",
    "Verif.Reindex3.adaptive_hides_damaged_file"
   ],
   "note": "Proved in full for the multi-pass indexer; for the adaptive one only on whole files, since it reports success on missing and torn ones (adaptive_hides_damaged_file)."
  },
  {
   "property": "C93",
   "status": "partial",
   "theorems": [
    "Verif.Killed.ingest_calls",
    "Verif.Killed.a_finished_run_leaves_its_chain",
    "Verif.Killed.a_run_killed_at_a_sync_leaves_its_chain",
    "Verif.Killed.synced_blocks_survive_a_kill",
    "Verif.Killed.disk_length",
    "Verif.Killed.a_killed_run_leaves_no_chain",
    "Verif.Killed.a_good_chain_killed_before_closing_is_lost"
   ],
   "note": "Synced words survive any kill, and a closed or just synced run opens with exactly its words. That every killed run can be opened is refuted: the theorems with `no_chain` and `lost` prove the negation."
  },
  {
   "property": "C94",
   "status": "partial",
   "theorems": [
    "Verif.SensibleParams.params_work_iff",
    "Verif.SensibleParams.constructor_accepts_unusable",
    "Verif.SensibleParams.chosen_params_work",
    "Verif.SensibleParams.target_iff",
    "Verif.SensibleParams.capacity_is_sharp"
   ],
   "note": "The exact set of working parameters is proved, and that the ready-made ones are in it; the claim for everything the constructor accepts is refuted."
  },
  {
   "property": "C95",
   "status": "partial",
   "theorems": [
    "Verif.Cake.killed_between_bakes_partial",
    "Verif.Cake.killed_before_emptying",
    "Verif.Cake.killed_while_emptying",
    "Verif.Cake.killed_in_first_bake",
    "Verif.Cake.killed_bake_can_be_saved",
    "Verif.Cake.killed_in_later_bake_partial",
    "Verif.Cake.killed_at_new_level",
    "Verif.Cake.killed_bake_spoils_the_next"
   ],
   "note": "Proved outside bakes; during a bake the claim is refuted moment by moment. In later bakes before the description old answers are kept, but it may not open (a new level), and going on spoils the next bake (a concrete run)."
  },
  {
   "property": "C96",
   "status": "partial",
   "theorems": [
    "Verif.Creators.memory_creator",
    "Verif.Creators.tierZero_creator",
    "Verif.Creators.chained_creator_partial",
    "Verif.Creators.chained_there_not_open",
    "Verif.Creators.chained_not_thereOpens",
    "Verif.Creators.half_created_errs",
    "Verif.Creators.binned_not_created",
    "Verif.Creators.binned_not_createsEmpty",
    "Verif.Creators.binned_constructor_destroys",
    "Verif.Creators.binned_opens_there_partial",
    "Verif.Creators.uniform_creator",
    "Verif.Cake.recreated_cake_remembers",
    "Verif.Cake.created_cake_is_new_partial"
   ],
   "note": "Proved for two of the six kinds of store, half of it for a third; refuted for the others."
  },
  {
   "property": "C97",
   "status": "partial",
   "theorems": [
    "Verif.SelfTest3.selftest_sound",
    "Verif.SelfTest3.bulk_selftest_partial",
    "Verif.SelfTest3.selftest_passes_duplicates",
    "Verif.SelfTest3.selftest_ignores_order",
    "Verif.SelfTest3.selftest_detects_absent"
   ],
   "note": "Sound for what it checks on every folder, complete after bulk runs; shown to pass on stores that do not agree with the file."
  },
  {
   "property": "C98",
   "status": "proved",
   "theorems": [
    "Verif.Receivers.block_read",
    "Verif.Receivers.blocks_read",
    "Verif.Receivers.read_refines"
   ],
   "note": "For every prior state of the receivers; also shows that the run of C77 is shown blocks as modelled there."
  },
  {
   "property": "C99",
   "status": "partial",
   "theorems": [
    "Verif.Receivers.other_block_refused",
    "Verif.Receivers.own_part_partial",
    "Verif.Receivers.handles_differ",
    "Verif.Receivers.txi_answer",
    "Verif.Receivers.txo_answer",
    "Verif.Receivers.part_of_next"
   ],
   "note": "The answer to every handle is characterised exactly; positions beyond a transaction's own are shown to give another transaction's inputs and outputs."
  },
  {
   "property": "C100",
   "status": "partial",
   "theorems": [
    "Verif.Receivers.receiver_overwritten_partial",
    "Verif.Receivers.refusal_keeps"
   ],
   "note": "Holds for answered calls but for fields that are not sent; refused calls are shown to keep the earlier hash, height, fields and amount."
  },
  {
   "property": "C101",
   "status": "partial",
   "theorems": [
    "Verif.ChainStore.returned_quiet_partial",
    "Verif.ChainStore.returned_quiet_input_error",
    "Verif.ChainStore.goroutine_left_behind",
    "Verif.ChainStore.writes_after_return"
   ],
   "note": "Proved for returns of nil and of errors of inputs; for errors of outputs it is shown that the goroutine never ends and that all writes of the inputs can come after the return."
  },
  {
   "property": "C102",
   "status": "proved",
   "theorems": [
    "Verif.WorkerPool.calls_in_order",
    "Verif.WorkerPool.runs_end",
    "Verif.WorkerPool.all_processed",
    "Verif.WorkerPool.no_workers"
   ],
   "note": "Process, SetError and Done are the client's and are taken to end without panic; the channel is closed only when all tasks are sent."
  },
  {
   "property": "C103",
   "status": "partial",
   "theorems": [
    "Verif.TinyChain.blocks_walked",
    "Verif.TinyChain.transactions_walked",
    "Verif.TinyChain.nth_transaction",
    "Verif.TinyChain.nth_parts",
    "Verif.TinyChain.tiny_sound",
    "Verif.TinyChain.tiny_money",
    "Verif.TinyChain.invalid_goes_on",
    "Verif.TinyChain.tiny_spends_later"
   ],
   "note": "All but the last part is proved; that handles stay invalid past the end is refuted."
  },
  {
   "property": "C104",
   "status": "proved",
   "theorems": [
    "Verif.SingleTree.memory_lookup_exact",
    "Verif.SingleTree.memory_tree_size",
    "Verif.SingleTree.memory_zero_ambiguous"
   ],
   "note": "The choice of the byte to branch on is any function that is 0 just where all hashes agree (EntropyOK), as the floating point entropy is taken to be."
  },
  {
   "property": "C105",
   "status": "partial",
   "theorems": [
    "Verif.AddressFiles.objects_keep_first_answer_partial",
    "Verif.AddressFiles.object_goes_stale"
   ],
   "note": "What the objects answer is proved exactly for every session; that it is the answer for the outputs of now is refuted."
  },
  {
   "property": "C106",
   "status": "proved",
   "theorems": [
    "Verif.Killed.finished_chain_format",
    "Verif.Killed.same_chain_same_files",
    "Verif.Killed.spent_to_is_blank"
   ],
   "note": "Byte-exact, for all chains. spent_to_is_blank: the file spenttotxi.int is all zeros, whatever is spent."
  },
  {
   "property": "C107",
   "status": "partial",
   "theorems": [
    "Verif.SharedFile.locked_calls_right_partial",
    "Verif.SharedFile.unlocked_reads_mix_partial",
    "Verif.SharedFile.same_record_right",
    "Verif.SharedFile.any_mix_can_come_back",
    "Verif.SharedFile.a_reader_can_spoil_a_write"
   ],
   "note": "Proved when calls do not overlap; for overlapping calls exactly which bytes can come back is proved, and the claim is refuted for every two records."
  },
  {
   "property": "C108",
   "status": "partial",
   "theorems": [
    "Verif.Faulty.no_error_means_stored_partial",
    "Verif.Faulty.synced_bytes_stay",
    "Verif.Faulty.a_nil_sync_after_a_loss",
    "Verif.Faulty.a_retry_lands_in_the_wrong_place",
    "Verif.Faulty.size_covers_the_disk"
   ],
   "note": "Parts (1) and (2) proved for every disk. Part (3) is false of the code: after an append whose buffer flush fails, the bytes accepted before are gone, Sync and Close return nil, and a retry at the same offset lands in the wrong place. Read errors and a failing Seek are not modelled."
  },
  {
   "property": "C109",
   "status": "partial",
   "theorems": [
    "Verif.Faulty.nil_and_closed_means_stored_partial",
    "Verif.Faulty.some_disk_works",
    "Verif.Faulty.a_nil_run_may_have_stored_nothing"
   ],
   "note": "Proved for the word files when every Close returned nil. The job does not look at the results of Close, and a disk that refuses the last flush makes the full claim false, which is proved. The files of further outputs of addresses and the hash stores are not in this model."
  },
  {
   "property": "C110",
   "status": "partial",
   "theorems": [
    "Verif.KilledAppend.a_kill_inside_an_append_partial",
    "Verif.KilledAppend.writes_are_the_append",
    "Verif.KilledAppend.the_interrupted_hash_is_orphaned",
    "Verif.KilledAppend.going_on_loses_a_stored_hash",
    "Verif.KilledAppend.a_kill_puts_the_chunks_out_of_step"
   ],
   "note": "The answer for every stored hash after every kill is given exactly; it is wrong at one moment, and going on afterwards loses hashes, both proved, so the full claim is false. Each write of the operating system is taken to be done altogether or not at all."
  },
  {
   "property": "C111",
   "status": "partial",
   "theorems": [
    "Verif.ChainedFiles.killed_session_partial",
    "Verif.ChainedFiles.earlier_sessions_survive",
    "Verif.ChainedFiles.the_session_is_forgotten"
   ],
   "note": "The answer for every hash is given exactly, on the bytes of the files. It is not the claimed one for hashes of the killed session, because neither HashStore.Sync nor the in-memory file's Sync writes the lookups; the full claim is false."
  },
  {
   "property": "C112",
   "status": "partial",
   "theorems": [
    "Verif.KilledSave.a_kill_while_saving_partial",
    "Verif.KilledSave.a_kill_while_saving_loses_the_file",
    "Verif.KilledSave.the_disk_operations_are_the_call"
   ],
   "note": "The code violates the full claim: os.WriteFile empties the file first. Proved for every array outside the file being written at the kill; for that file the loss is proved for every session. What a file part way through its write reads as is C113."
  },
  {
   "property": "C113",
   "status": "partial",
   "theorems": [
    "Verif.TornFile.a_file_cut_short_is_noticed_partial",
    "Verif.TornFile.a_killed_store_shows_no_wrong_array_partial",
    "Verif.TornFile.a_cut_value_is_taken_as_whole",
    "Verif.TornFile.a_cut_length_is_taken_as_empty",
    "Verif.TornFile.whole_files_load_the_same"
   ],
   "note": "The code violates the full claim for the last array of a file: LoadFile slices into the unused capacity of the buffer and reads zeros. The capacity of the buffer os.ReadFile returns is taken from the Go standard library."
  },
  {
   "property": "C114",
   "status": "partial",
   "theorems": [
    "Verif.OpenFiles.what_a_closed_chain_leaves_open",
    "Verif.OpenFiles.closing_a_chain_closes_every_file_partial",
    "Verif.OpenFiles.a_torn_optional_file_stays_open",
    "Verif.OpenFiles.what_a_failed_open_leaves_open",
    "Verif.OpenFiles.a_failed_open_leaves_nothing_open_partial",
    "Verif.OpenFiles.a_failed_open_leaves_a_file_open",
    "Verif.OpenFiles.a_failed_open_in_ram",
    "Verif.OpenFiles.a_chain_opened_for_reading_stays_open",
    "Verif.OpenFiles.reading_again_and_again",
    "Verif.OpenFiles.creating_from_hash_stores_leaves_nothing_open",
    "Verif.OpenFiles.creating_a_chain_leaves_three_files_open",
    "Verif.OpenFiles.closing_a_chain_of_hashes",
    "Verif.OpenFiles.a_chain_of_hashes_that_does_not_open",
    "Verif.OpenFiles.a_chained_hash_store_leaves_nothing_open",
    "Verif.OpenFiles.the_openings_are_those_of_the_factory"
   ],
   "note": "Partial because the code violates the claim: which files stay open is proved exactly, and the violations are theorems (creating a chain, a torn optional file, a failed Open, a chain of hashes that fails to open, a chain opened for reading)."
  },
  {
   "property": "C115",
   "status": "partial",
   "theorems": [
    "Verif.CakeHandles.what_an_open_cake_holds",
    "Verif.CakeHandles.a_closed_cake_holds_nothing_partial",
    "Verif.CakeHandles.used_and_closed_partial",
    "Verif.CakeHandles.close_succeeds_iff",
    "Verif.CakeHandles.failed_close_leaves_open",
    "Verif.CakeHandles.failed_open_leaves_open",
    "Verif.CakeHandles.what_a_failed_open_leaves",
    "Verif.CakeHandles.each_failed_open_loses_a_file",
    "Verif.CakeHandles.each_full_tier_leaves_a_file_open"
   ],
   "note": "Partial because the code violates the claim: a failed opening, a failed Close and a first tier that becomes full leave files open; what is left is proved. Proved: what an open cake holds, and that a Close without error leaves nothing."
  },
  {
   "property": "C116",
   "status": "proved",
   "theorems": [
    "Verif.Cake.every_append_is_numbered",
    "Verif.Cake.never_a_wrong_hash",
    "Verif.Cake.reopened_cake_gives_every_hash"
   ],
   "note": "No limit on the number of hashes or tiers. That the operations do not fail is a hypothesis (see C64 for when they do not)."
  },
  {
   "property": "C117",
   "status": "proved",
   "theorems": [
    "Verif.Cake.cake_has_room_for",
    "Verif.Cake.full_cake_takes_no_more",
    "Verif.Cake.tiers_are_digits"
   ],
   "note": "An upper bound on the room and the exact layout; that the appends up to there succeed is not claimed (C61, C63)."
  },
  {
   "property": "C118",
   "status": "partial",
   "theorems": [
    "Verif.TopDisk.no_failure_no_trace_partial",
    "Verif.TopDisk.failed_append_is_found",
    "Verif.TopDisk.after_a_failed_append",
    "Verif.TopDisk.an_index_given_twice",
    "Verif.TopDisk.torn_file_takes_nothing"
   ],
   "note": "The code violates it, and the negations are proved for all executions: a hash whose append failed is found until the close, an append that succeeds after a failed one gets an index under which nothing is found after opening again, an index is given twice if the top tier gets full after a failure, a failure of the append that would fill it makes the next one panic, and a file that ends in part of a hash takes no append. Proved as stated while nothing fails, up to the first bake. Of a bake only the effect on the top tier is modelled."
  },
  {
   "property": "C119",
   "status": "partial",
   "theorems": [
    "Verif.FaultyArrays.nil_sync_means_saved_partial",
    "Verif.FaultyArrays.a_refusing_disk_hangs_the_store",
    "Verif.FaultyArrays.a_failed_read_loses_what_was_synced",
    "Verif.FaultyArrays.a_refused_save_is_not_reported"
   ],
   "note": "Proved for the caching store when reads succeed, whatever the saves do. Otherwise the code violates it: a failed read is taken for an empty file, which the next save then overwrites; the loop that makes room in the cache does not end when saves are refused; the store without a cache does not look at the result of one of its saves. All three are proved in general."
  },
  {
   "property": "C120",
   "status": "partial",
   "theorems": [
    "Verif.BinDisk.early_failures_harm_nothing_partial",
    "Verif.BinDisk.an_unreadable_overflow_file_is_overwritten",
    "Verif.BinDisk.a_cut_write_loses_a_stored_hash",
    "Verif.BinDisk.failures_stay_in_their_bin",
    "Verif.BinDisk.fine_is_the_store"
   ],
   "note": "Proved for sessions in which the disk fails, if at all, before any byte of a bin is written and no existing overflow file is unreadable; a failed append then uses up an index, which is counted and reads as a hash of zeros. Otherwise the code violates it: an overflow file that cannot be read is taken for missing and overwritten by an append that returns nil, and a write cut between two entries loses a hash stored before. Both are proved for all parameters, sessions and hashes. Whatever the disk does, such failures harm only the bin that was being written: failures_stay_in_their_bin says that every answer about the other bins is right, until an operation on a harmed bin panics. The file of bin numbers is taken to work (C108)."
  },
  {
   "property": "C121",
   "status": "partial",
   "theorems": [
    "Verif.BinKill.killed_store_partial",
    "Verif.BinKill.a_synced_store_survives_a_kill",
    "Verif.BinKill.a_killed_store_cannot_be_opened",
    "Verif.BinKill.an_index_is_given_twice_after_a_kill",
    "Verif.BinKill.a_kill_before_the_bin_is_written_does_no_harm",
    "Verif.BinKill.a_kill_within_an_append_loses_synced_hashes",
    "Verif.BinKill.a_kill_between_the_files_loses_nothing",
    "Verif.BinKill.a_kill_within_an_append_spares_the_other_bins",
    "Verif.BinKill.the_session_after_a_kill"
   ],
   "note": "Proved for any session with any number of kills: exactly which hashes are listed after a kill, exactly when the store opens, that every hash ever appended is found under an index its append returned, and that after a Sync a kill changes nothing. The code violates the rest: with bin numbers of three bytes (the parameters for addresses and transactions) a store killed after 1366 appends cannot be opened, and otherwise hashes are found that are not counted and whose index the next append gives away again. Both proved for all parameters and hashes. A kill within an append to a synced store: before the bin is written it does no harm, but when the overflow file of the bin has just been opened every hash in that file is lost, though synced; both proved. When the overflow file has been written and the start of the bin has not, nothing is lost and no other hash is found than perhaps the one being appended, proved. At any moment, also with a write cut after any number of bytes, the hashes of the other bins are kept and no other hash is found in them, and any session after it is right about those bins, proved; what such a cut leaves in the bin itself is not treated (for a failing disk see C120)."
  },
  {
   "property": "C122",
   "status": "partial",
   "theorems": [
    "Verif.CakeRepeats.repeats_across_batches_are_taken_partial",
    "Verif.CakeRepeats.a_repeat_in_a_batch_crashes",
    "Verif.CakeRepeats.a_repeat_dooms_the_cake",
    "Verif.CakeRepeats.a_repeat_in_the_first_tier_crashes",
    "Verif.CakeRepeats.a_recent_repeat_is_given_its_last_index",
    "Verif.CakeRepeats.a_baked_repeat_is_given_its_first_index_partial",
    "Verif.CakeRepeats.repeated_hashes_at_their_indices_partial"
   ],
   "note": "Proved for every history of appends and reopenings that does not fill the first tier: repeats in different batches are numbered in order and given back by index, and once all of a hash's appends lie in full batches it is found under its first index. The code violates the rest: a hash appended since the last full batch is found under its latest index; a hash twice in one batch crashes the program when the batch is full, and a hash twice in the batches of the first tier crashes it when that tier is full, whatever is done in between. All proved for all histories."
  },
  {
   "property": "C123",
   "status": "partial",
   "theorems": [
    "Verif.FaultyReads.an_answer_from_a_failing_disk_is_right",
    "Verif.FaultyReads.a_working_disk_answers",
    "Verif.FaultyReads.a_client_is_told_an_error_or_the_truth",
    "Verif.FaultyReads.a_stored_chain_on_a_failing_disk",
    "Verif.FaultyReads.a_failing_disk_says_a_stored_hash_is_not_found",
    "Verif.FaultyReads.not_found_is_right_on_a_working_disk_partial",
    "Verif.FaultyReads.an_address_on_a_failing_disk_partial",
    "Verif.FaultyReads.an_address_recovers",
    "Verif.FaultyReads.a_failing_disk_gives_a_hash_of_zeros"
   ],
   "note": "Proved for every call that can return an error, every client that stops at the first error, and every choice of failing accesses. The code violates the rest: the three lookups by hash drop the error of the hash store and say that a stored hash is not found, and Hash of an address object gives a hash of zeros without an error. Both proved for all chains and hashes."
  },
  {
   "property": "C124",
   "status": "partial",
   "theorems": [
    "Verif.FaultyHashes.nil_means_gathered_partial",
    "Verif.FaultyHashes.blocks_and_transactions_are_gathered",
    "Verif.FaultyHashes.a_working_disk_gathers",
    "Verif.FaultyHashes.lost_addresses_are_not_reported",
    "Verif.FaultyHashes.a_refused_last_write_is_not_reported"
   ],
   "note": "Proved for blocks and transactions, for addresses when AppendHashesCri is used or CountHashes counts every output, and then a Sync or the closing of the files gave no error. The code violates the rest: AppendHashesChi drops the errors of the address file, so 129 hashes can be missing from its middle while every call, Sync and the job return nil; and Close drops its errors, so the job returns nil without the last hashes. Both proved for all chains."
  },
  {
   "property": "C125",
   "status": "partial",
   "theorems": [
    "Verif.FaultyIndex.nil_means_indexed_partial",
    "Verif.FaultyIndex.whole_reads_index",
    "Verif.FaultyIndex.a_bad_place_hides_the_rest",
    "Verif.FaultyIndex.passed_means_tested_partial",
    "Verif.FaultyIndex.whole_reads_test",
    "Verif.FaultyIndex.a_self_test_skips_the_rest",
    "Verif.FaultyIndex.an_unreadable_file_passes",
    "Verif.FaultyIndex.hash_by_hash_reads_all",
    "Verif.FaultyIndex.hash_by_hash_reads"
   ],
   "note": "Proved for any reads for the loop that reads hash by hash (indexedhashes3), and for the two loops that read chunks (uniform indexer, self-test of indexedhashes3) when reads are short but none fails. The code violates the rest: the chunk loops drop the error of a read and take it for the end of the file. Proved for every place in the file: indexing returns nil and the hashes after it are looked up as not there; the self-test says what it would say of the part before; with an unreadable file it passes for any store that opens."
  },
  {
   "property": "C126",
   "status": "partial",
   "theorems": [
    "Verif.ParamFile.binned_parameters_survive",
    "Verif.ParamFile.uniform_parameters_survive",
    "Verif.ParamFile.same_or_error_partial",
    "Verif.ParamFile.same_or_error_uniform_partial",
    "Verif.ParamFile.old_parameters_are_used",
    "Verif.ParamFile.old_parameters_lose_hashes",
    "Verif.ParamFile.created_uniform_parameters",
    "Verif.ParamFile.creating_takes_the_parameters"
   ],
   "note": "Proved for all parameters of both stores and every number of bytes written, when the file can be made or there was none. The code violates the rest: the constructors drop every error, so over an old file that cannot be written the store is later opened with the old parameters, and then reports indexed hashes as absent. json.Unmarshal is modelled for objects of whole numbers without white space, escapes or other letter case of keys: all texts that are written, and their beginnings, are such. Keys, field order and number ranges are those of the structs."
  }
 ]
}
