{
 "claims": [
  {
   "property": "C01",
   "status": "proved",
   "theorems": [
    "Verif.C01_delivered",
    "Verif.C01_delivered_total"
   ],
   "note": "C01_delivered: any messages of other blocks, provided the processor does not fault on them; C01_delivered_total: no such proviso when everything received belongs to correctly produced blocks. Conditions are Spec.WellFormed."
  },
  {
   "property": "C02",
   "status": "proved",
   "theorems": [
    "Verif.C02_emitted_exact"
   ],
   "note": ""
  },
  {
   "property": "C03",
   "status": "proved",
   "theorems": [
    "Verif.C03_at_most_once"
   ],
   "note": ""
  },
  {
   "property": "C04",
   "status": "proved",
   "theorems": [
    "Verif.C04_order_independent"
   ],
   "note": ""
  },
  {
   "property": "C05",
   "status": "proved",
   "theorems": [
    "Verif.C05_blocks_independent",
    "Verif.C05_own_messages"
   ],
   "note": "C05_blocks_independent: other messages leave everything held for a block unchanged. C05_own_messages: the emitted content is what the block's own messages alone produce. Eviction requests and Reorg messages as stated in the quantifier."
  },
  {
   "property": "C06",
   "status": "proved",
   "theorems": [
    "Verif.C06_no_untracked_data",
    "Verif.C06_nothing_tracked"
   ],
   "note": ""
  },
  {
   "property": "C07",
   "status": "partial",
   "theorems": [
    "Verif.C07_refuted",
    "Verif.C07_messages_recorded_partial",
    "Verif.C07_content_recorded_partial"
   ],
   "note": "As stated the property is false: the second copy of a sub-batch header is not recorded (C07_refuted). The partial theorems cover every other message, and all content of the block."
  },
  {
   "property": "C08",
   "status": "proved",
   "theorems": [
    "Verif.C08_roundtrip",
    "Verif.C08_range"
   ],
   "note": ""
  },
  {
   "property": "C09",
   "status": "proved",
   "theorems": [
    "Verif.C09_resume",
    "Verif.C09_kafka_restart"
   ],
   "note": "The second consumer may get the recorded messages in any order, mixed with anything else that is consistent for the block."
  },
  {
   "property": "C10",
   "status": "proved",
   "theorems": [
    "Verif.C10_dropped_stay_dropped"
   ],
   "note": ""
  },
  {
   "property": "C11",
   "status": "proved",
   "theorems": [
    "Verif.C11_reopens",
    "Verif.C11_reorg"
   ],
   "note": ""
  },
  {
   "property": "C12",
   "status": "partial",
   "theorems": [
    "Verif.C12_refuted",
    "Verif.C12_partial"
   ],
   "note": "False as stated (C12_refuted: short key, short sub-batch key, index out of range); C12_partial covers all well-formed messages."
  },
  {
   "property": "C13",
   "status": "partial",
   "theorems": [
    "Verif.C13_refuted",
    "Verif.C13_partial"
   ],
   "note": "False as stated (C13_refuted: rooted paths); C13_partial covers all relative paths."
  },
  {
   "property": "C14",
   "status": "proved",
   "theorems": [
    "Verif.C14_total"
   ],
   "note": "Proved for all configurations, with or without FailedReconstructPanic."
  },
  {
   "property": "C15",
   "status": "partial",
   "theorems": [
    "Verif.C15_refuted",
    "Verif.C15_partial",
    "Verif.C15_exact"
   ],
   "note": "False as stated (C15_refuted: missing sub-batch message reported ready); C15_partial is the rest. C15_exact: the answer is wrong exactly when all announced sub-batch headers have come and a message of one of them has not."
  },
  {
   "property": "C16",
   "status": "partial",
   "theorems": [
    "Verif.C16_refuted_duplicate",
    "Verif.C16_refuted_inline",
    "Verif.C16_subbatch_partial"
   ],
   "note": "False of the code (C16_refuted_duplicate, C16_refuted_inline). C16_subbatch_partial: empty values inside sub-batches are transported."
  },
  {
   "property": "C17",
   "status": "proved",
   "theorems": [
    "Verif.C17_counts"
   ],
   "note": ""
  },
  {
   "property": "C18",
   "status": "proved",
   "theorems": [
    "Verif.C18_addBlock_exact"
   ],
   "note": ""
  },
  {
   "property": "C19",
   "status": "proved",
   "theorems": [
    "Verif.C19_addBlock_topics",
    "Verif.C19_sendBatch_topic"
   ],
   "note": ""
  },
  {
   "property": "C20",
   "status": "proved",
   "theorems": [
    "Verif.C20_addBlock_ok_iff",
    "Verif.C20_addBlock_errors"
   ],
   "note": ""
  },
  {
   "property": "C21",
   "status": "proved",
   "theorems": [
    "Verif.C21_sendBatch_exact",
    "Verif.C21_sendBatch_deterministic"
   ],
   "note": ""
  },
  {
   "property": "C22",
   "status": "proved",
   "theorems": [
    "Verif.C22_sendBatch_histories",
    "Verif.C22_sendBatch_iff",
    "Verif.C22_sendBatch_refused"
   ],
   "note": ""
  },
  {
   "property": "C23",
   "status": "partial",
   "theorems": [
    "Verif.C23_refuted",
    "Verif.C23_partial"
   ],
   "note": "As stated the property is false: a failed AddBlock leaves sub-batch registrations behind (C23_refuted). C23_partial: nothing else changes, and nothing at all changes without sub-batches."
  },
  {
   "property": "C24",
   "status": "proved",
   "theorems": [
    "Verif.C24_overlap_rejected",
    "Verif.C24_accepted"
   ],
   "note": ""
  },
  {
   "property": "C25",
   "status": "proved",
   "theorems": [
    "Verif.C25_addBlock_keys",
    "Verif.C25_sendBatch_keys",
    "Verif.C25_keys_injective",
    "Verif.C25_keys_recovered",
    "Verif.C25_any_length"
   ],
   "note": ""
  },
  {
   "property": "C26",
   "status": "proved",
   "theorems": [
    "Verif.C26_int_roundtrip",
    "Verif.C26_batch_roundtrip",
    "Verif.C26_sub_roundtrip"
   ],
   "note": ""
  },
  {
   "property": "C27",
   "status": "partial",
   "theorems": [
    "Verif.C27_exact",
    "Verif.C27_refuted",
    "Verif.C27_partial"
   ],
   "note": "As stated the property is false (C27_refuted gives the witness); C27_partial is the part that holds. C27_exact: the number of blocks that arrives is the announced one modulo 2^32, the same exactly when it fits 32 bits."
  },
  {
   "property": "C28",
   "status": "proved",
   "theorems": [
    "Verif.C28_continuous"
   ],
   "note": ""
  },
  {
   "property": "C29",
   "status": "proved",
   "theorems": [
    "Verif.C29_fork",
    "Verif.C29_disjoint"
   ],
   "note": ""
  },
  {
   "property": "C30",
   "status": "proved",
   "theorems": [
    "Verif.C30_heavier"
   ],
   "note": ""
  },
  {
   "property": "C31",
   "status": "proved",
   "theorems": [
    "Verif.C31_heaviest"
   ],
   "note": ""
  },
  {
   "property": "C32",
   "status": "proved",
   "theorems": [
    "Verif.C32_once"
   ],
   "note": ""
  },
  {
   "property": "C33",
   "status": "proved",
   "theorems": [
    "Verif.C33_whitelist"
   ],
   "note": ""
  },
  {
   "property": "C34",
   "status": "proved",
   "theorems": [
    "Verif.C34_admitted",
    "Verif.C34_descendants"
   ],
   "note": ""
  },
  {
   "property": "C35",
   "status": "partial",
   "theorems": [
    "Verif.C35_partial",
    "Verif.C35_refuted_zero",
    "Verif.C35_refuted_evicted"
   ],
   "note": "False of the code: C35_refuted_zero (waiting block of weight zero), C35_refuted_evicted (blocks heavier than parents, after evictions). C35_partial: no fault at all when blocks are heavier than parents and fit the window."
  },
  {
   "property": "C36",
   "status": "proved",
   "theorems": [
    "Verif.C36_handle",
    "Verif.C36_reachable",
    "Verif.C36_run"
   ],
   "note": ""
  },
  {
   "property": "C37",
   "status": "proved",
   "theorems": [
    "Verif.C37_heaviest",
    "Verif.C37_any_length",
    "Verif.C37_asked",
    "Verif.C37_fits_tracked",
    "Verif.C37_recent_needed"
   ],
   "note": "C37_any_length covers any number of blocks; C37_heaviest (all blocks fit the window) is the special case shown by C37_fits_tracked; C37_recent_needed shows by a run that the recency condition cannot be dropped. C37_asked: every request to drop older blocks carries the number of a delivered block that had ceased to be recent."
  },
  {
   "property": "C38",
   "status": "proved",
   "theorems": [
    "Verif.C38_chain",
    "Verif.C38_window",
    "Verif.C38_complete"
   ],
   "note": ""
  },
  {
   "property": "C39",
   "status": "partial",
   "theorems": [
    "Verif.C39_gaps_partial",
    "Verif.C39_tree_partial",
    "Verif.C39_covers_parentsFirst",
    "Verif.C39_refuted",
    "Verif.C39_partial"
   ],
   "note": "False of the code (C39_refuted, nine blocks). C39_gaps_partial, C39_tree_partial: every order in which each block that closes a gap is then the heaviest connected block, or has no fork waiting above it (C39_covers_parentsFirst: parents-first orders are among them); after every delivery the head is a heaviest connected block. C39_partial: parents-first orders; single chains in any order are C38."
  },
  {
   "property": "C40",
   "status": "proved",
   "theorems": [
    "Verif.C40_repeat",
    "Verif.C40_remembered"
   ],
   "note": ""
  },
  {
   "property": "C41",
   "status": "proved",
   "theorems": [
    "Verif.C41_ordering",
    "Verif.C41_assembler"
   ],
   "note": ""
  },
  {
   "property": "C42",
   "status": "partial",
   "theorems": [
    "Verif.C42_refuted",
    "Verif.C42_partial"
   ],
   "note": "False of the code (C42_refuted). C42_partial: LastHash block redelivered first, parents first."
  },
  {
   "property": "C43",
   "status": "proved",
   "theorems": [
    "Verif.C43_pipeline",
    "Verif.C43_prefix",
    "Verif.C43_updates",
    "Verif.C43_progress"
   ],
   "note": "A call is one atomic step followed by its channel sends one by one; see Model/System.lean for why this loses no behaviour."
  },
  {
   "property": "C44",
   "status": "proved",
   "theorems": [
    "Verif.C44_end_to_end",
    "Verif.C44_no_fault"
   ],
   "note": "Chains of at most 2*reorgThreshold-1 blocks (EndToEnd.window, as C38). Eviction requests may be any that the ordering layer really sent (Genuine). C44_no_fault: no schedule faults and every execution can be completed; termination is C43_progress."
  },
  {
   "property": "C45",
   "status": "proved",
   "theorems": [
    "Verif.C45_skip",
    "Verif.C45_C46_send",
    "Verif.C45_C46_sub",
    "Verif.C45_purged"
   ],
   "note": "C45_C46_send, C45_C46_sub: also what is sent when nothing is skipped. Hashes observed and calls are interleaved in any way (Spec.KP.Run); a call is atomic with respect to observations, which only touch the cache read by its first statement."
  },
  {
   "property": "C46",
   "status": "proved",
   "theorems": [
    "Verif.C45_C46_send",
    "Verif.C45_C46_sub"
   ],
   "note": ""
  },
  {
   "property": "C47",
   "status": "proved",
   "theorems": [
    "Verif.C47_offsets",
    "Verif.C47_not_after",
    "Verif.C47_negative",
    "Verif.C47_resume"
   ],
   "note": "Offsets are int64 (Avro.wrap64). C47_resume combines it with C08."
  },
  {
   "property": "C48",
   "status": "proved",
   "theorems": [
    "Verif.C48_all_called",
    "Verif.C48_total"
   ],
   "note": ""
  },
  {
   "property": "C49",
   "status": "partial",
   "theorems": [
    "Verif.C49_least_partial",
    "Verif.C49_none",
    "Verif.C49_refuted"
   ],
   "note": "False as stated (C49_refuted: the largest int64 counts as no answer). C49_least_partial: answers below it; C49_none: no answers."
  },
  {
   "property": "C50",
   "status": "proved",
   "theorems": [
    "Verif.C50_start",
    "Verif.C50_count"
   ],
   "note": ""
  },
  {
   "property": "C51",
   "status": "proved",
   "theorems": [
    "Verif.C51_assembled"
   ],
   "note": "One connection, any state of earlier connections. At every moment of the receive order the block has been handed on exactly if all parts have arrived."
  },
  {
   "property": "C52",
   "status": "partial",
   "theorems": [
    "Verif.C52_partial",
    "Verif.C52_refuted"
   ],
   "note": "False as stated (C52_refuted: second batch message). C52_partial: sub-batch messages repeated any number of times."
  },
  {
   "property": "C53",
   "status": "partial",
   "theorems": [
    "Verif.C53_partial",
    "Verif.C53_position_partial",
    "Verif.C53_refuted",
    "Verif.C53_request"
   ],
   "note": "False as stated (C53_refuted). C53_partial: a block received is handed on or still held at the disconnect, and blocks without sub-batches are all handed on; C53_position_partial: the position asked for. C53_request: the position asked for, over all connections. C106 shows that nothing is lost when the blocks come one after the other."
  },
  {
   "property": "C54",
   "status": "partial",
   "theorems": [
    "Verif.C54_partial",
    "Verif.C54_stored_partial",
    "Verif.C54_refuted"
   ],
   "note": "False as stated (C54_refuted: key that is not UTF-8). C54_partial, C54_stored_partial: UTF-8 keys, weights that hexutil.Big carries (non-negative, below 2^256)."
  },
  {
   "property": "C55",
   "status": "proved",
   "theorems": [
    "Verif.C55_hash",
    "Verif.C55_number",
    "Verif.C55_notFound"
   ],
   "note": "Announcements count from the moment the waiter's loop has taken them from its buffer (C55_notFound)."
  },
  {
   "property": "C56",
   "status": "proved",
   "theorems": [
    "Verif.C56_closed_once"
   ],
   "note": "Done calls on one block must not overlap (Model/Waiter.lean: a Done is one step). A second call of ompWaiter.Stop would close w.ch twice; it is excluded."
  },
  {
   "property": "C57",
   "status": "proved",
   "theorems": [
    "Verif.C57_hash",
    "Verif.C57_wakes",
    "Verif.C57_number"
   ],
   "note": "Time is not modelled: a call that finds a closed channel can succeed at once; Go may still choose the timeout if it has elapsed by then."
  },
  {
   "property": "C58",
   "status": "proved",
   "theorems": [
    "Verif.C58_count"
   ],
   "note": "For durations above the least int64; the count is a uint64."
  },
  {
   "property": "C59",
   "status": "proved",
   "theorems": [
    "Verif.C59_timestamp"
   ],
   "note": ""
  },
  {
   "property": "C60",
   "status": "proved",
   "theorems": [
    "Verif.C60_sources"
   ],
   "note": ""
  },
  {
   "property": "C61",
   "status": "partial",
   "theorems": [
    "Verif.C61_refuted",
    "Verif.C61_partial",
    "Verif.C61_system"
   ],
   "note": "False as stated (C61_refuted: sync.WaitGroup counter below zero). C61_partial: consumers of ordinary topics that carry no ReorgComplete message. C61_system: in every run of the consumer of Model/KafkaSystem the dispatcher panics at the first ReorgComplete message."
  },
  {
   "property": "C62",
   "status": "proved",
   "theorems": [
    "Verif.C62_latest"
   ],
   "note": ""
  },
  {
   "property": "C63",
   "status": "partial",
   "theorems": [
    "Verif.C63_exact",
    "Verif.C63_refuted",
    "Verif.C63_partial"
   ],
   "note": "False as stated (C63_refuted). C63_partial: every other key. C63_exact: exactly which keys panic, count as a block and count as another producer's heartbeat."
  },
  {
   "property": "C64",
   "status": "proved",
   "theorems": [
    "Verif.C64_reorg"
   ],
   "note": ""
  },
  {
   "property": "C65",
   "status": "partial",
   "theorems": [
    "Verif.C65_timestamps_partial",
    "Verif.C65_refuted"
   ],
   "note": "False as stated (C65_refuted). C65_timestamps_partial: brokers without common topics."
  },
  {
   "property": "C66",
   "status": "partial",
   "theorems": [
    "Verif.C66_refuted",
    "Verif.C66_partial",
    "Verif.C66_brokers"
   ],
   "note": "False as stated (C66_refuted). C66_partial: URLs without the prefix. Percent escapes and unparsable URLs not modelled."
  },
  {
   "property": "C67",
   "status": "partial",
   "theorems": [
    "Verif.C67_prefix",
    "Verif.C67_all_partial",
    "Verif.C67_progress",
    "Verif.C67_refuted"
   ],
   "note": "False as stated (C67_refuted: an empty partition). C67_prefix holds always; C67_all_partial when every partition has a message at or after its start offset; C67_progress: every schedule ends."
  },
  {
   "property": "C68",
   "status": "partial",
   "theorems": [
    "Verif.C68_partial",
    "Verif.C68_refuted"
   ],
   "note": "False as stated (C68_refuted). C68_partial: while no block of the same height is done."
  },
  {
   "property": "C69",
   "status": "partial",
   "theorems": [
    "Verif.C69_partial",
    "Verif.C69_refuted"
   ],
   "note": "False as stated (C69_refuted). C69_partial: no block added in the gap. BlocksFrom belongs to the application; assumed to hand out the stored blocks in order."
  },
  {
   "property": "C70",
   "status": "partial",
   "theorems": [
    "Verif.C70_partial",
    "Verif.C70_refuted"
   ],
   "note": "False as stated (C70_refuted). C70_partial: empty frames and other subscriptions."
  },
  {
   "property": "C71",
   "status": "proved",
   "theorems": [
    "Verif.C71_subbatches"
   ],
   "note": ""
  },
  {
   "property": "C72",
   "status": "partial",
   "theorems": [
    "Verif.C72_refuted"
   ],
   "note": "Refuted; for distinct ids the property is C51."
  },
  {
   "property": "C73",
   "status": "partial",
   "theorems": [
    "Verif.C73_partial",
    "Verif.C73_refuted"
   ],
   "note": "False as stated (C73_refuted: the race at the last message). C73_partial: every header read on startup is in the cache, being offered by its partition or held by the receiver, unless the cache is full; nothing else is in the cache."
  },
  {
   "property": "C74",
   "status": "partial",
   "theorems": [
    "Verif.C74_refuted",
    "Verif.C74_partial",
    "Verif.C74_progress"
   ],
   "note": "False as stated (C74_refuted: a used partition whose messages have all expired). C74_partial: otherwise goroutines come to rest only when the constructor has returned; C74_progress: they do come to rest."
  },
  {
   "property": "C75",
   "status": "partial",
   "theorems": [
    "Verif.C75_refuted",
    "Verif.C75_partial"
   ],
   "note": "False as stated (C75_refuted: every finished reorg). C75_partial: a consumer that arrives while the reorg topic holds at most one message."
  },
  {
   "property": "C76",
   "status": "partial",
   "theorems": [
    "Verif.C76_order_partial",
    "Verif.C76_overtaken_partial",
    "Verif.C76_refuted"
   ],
   "note": "False as stated (C76_refuted: completed blocks and reorg notifications travel over two channels; a schedule exchanges them and a later block is then not emitted). C76_order_partial: the order is kept in executions that never have something in both channels. C76_overtaken_partial: under every schedule each kind keeps its own order, and at most a hundred of either kind are overtaken."
  },
  {
   "property": "C77",
   "status": "partial",
   "theorems": [
    "Verif.C77_window_partial",
    "Verif.C77_short_partial",
    "Verif.C77_refuted"
   ],
   "note": "False as stated (C77_refuted). C77_window_partial: the highest among the last 100 messages of each partition; C77_short_partial: short feeds."
  },
  {
   "property": "C78",
   "status": "partial",
   "theorems": [
    "Verif.C78_restart_partial",
    "Verif.C78_refuted"
   ],
   "note": "False as stated (C78_refuted: skew between partitions). C78_restart_partial: if in every source the later block's messages are at most the rollback behind the emitted block; the restarted consumer then emits it exactly."
  },
  {
   "property": "C79",
   "status": "partial",
   "theorems": [
    "Verif.C79_sends_partial",
    "Verif.C79_first_partial",
    "Verif.C79_refuted"
   ],
   "note": "False as stated (C79_refuted: a producer that failed after the header suppresses the block at the other one). C79_sends_partial: a producer whose calls for the block return nil and which had not seen it announced hands over every message. C79_first_partial: the same for the first producer of the fleet that is given the block."
  },
  {
   "property": "C80",
   "status": "partial",
   "theorems": [
    "Verif.C80_waiting_partial",
    "Verif.C80_refuted"
   ],
   "note": "False as stated (C80_refuted: whatever the threshold, any number of different blocks with one parent that never arrives are all kept). C80_waiting_partial: at most 2 * ReorgThreshold blocks plus those that could not be placed when they were handled."
  },
  {
   "property": "C81",
   "status": "proved",
   "theorems": [
    "Verif.C81_latest"
   ],
   "note": ""
  },
  {
   "property": "C82",
   "status": "proved",
   "theorems": [
    "Verif.C82_sent",
    "Verif.C82_not_assembled",
    "Verif.C82_others_at_most_once",
    "Verif.C82_bounded"
   ],
   "note": ""
  },
  {
   "property": "C83",
   "status": "proved",
   "theorems": [
    "Verif.C83_held",
    "Verif.C83_dropped"
   ],
   "note": ""
  },
  {
   "property": "C84",
   "status": "partial",
   "theorems": [
    "Verif.C84_fresh_partial",
    "Verif.C84_remembered_partial",
    "Verif.C84_reconnected_partial",
    "Verif.C84_refuted"
   ],
   "note": "False as stated (C84_refuted: blocks handled before the notification are remembered and ignored when they come again, so subscribers stay at the announced block). C84_fresh_partial: holds for chains of any length of blocks not handled before and not already having children waiting, even lighter than the former head. C84_remembered_partial: remembered blocks are ignored. C84_reconnected_partial: a new block heavier than the former head brings all held blocks between it and the announced one."
  },
  {
   "property": "C85",
   "status": "partial",
   "theorems": [
    "Verif.C85_answers_partial",
    "Verif.C85_head_partial",
    "Verif.C85_refuted",
    "Verif.C85_refuted_emitted"
   ],
   "note": "False as stated (C85_refuted: a light fork is done though never sent; C85_refuted_emitted: an inner block of a reorg is sent and stays pending parent, and its child is then not followed). C85_answers_partial: done only for handled blocks and the starting one, pending parent only for handled and held ones, else the processor's answer. C85_head_partial: every new head is done."
  },
  {
   "property": "C86",
   "status": "proved",
   "theorems": [
    "Verif.C86_head",
    "Verif.C86_end",
    "Verif.C86_no_fault",
    "Verif.C86_any_length"
   ],
   "note": ""
  },
  {
   "property": "C87",
   "status": "proved",
   "theorems": [
    "Verif.C87_progress",
    "Verif.C87_delivered",
    "Verif.C87_published"
   ],
   "note": ""
  },
  {
   "property": "C88",
   "status": "proved",
   "theorems": [
    "Verif.C88_progress",
    "Verif.C88_delivered",
    "Verif.C88_published"
   ],
   "note": ""
  },
  {
   "property": "C89",
   "status": "proved",
   "theorems": [
    "Verif.C89_progress",
    "Verif.C89_head",
    "Verif.C89_any_length",
    "Verif.C89_end",
    "Verif.C89_published"
   ],
   "note": ""
  },
  {
   "property": "C90",
   "status": "partial",
   "theorems": [
    "Verif.C90_partial",
    "Verif.C90_refuted"
   ],
   "note": "False as stated (C90_refuted: the idle second of the dispatcher passes while a partition goroutine has called readyWg.Done and not yet sent its message). C90_partial: holds when the timer fires only while no looked-at message is in hand or on the channel."
  },
  {
   "property": "C91",
   "status": "partial",
   "theorems": [
    "Verif.C91_one_partial",
    "Verif.C91_partial",
    "Verif.C91_refuted_two",
    "Verif.C91_refuted_empty"
   ],
   "note": "False as stated (C91_refuted_two: one value is sent on an unbuffered channel and kc.ready set to nil, a second waiting goroutine hangs; C91_refuted_empty: with an empty partition nobody is ever released). C91_one_partial: if each partition has a message at or after its start offset and one reaching the high water mark, a waiting goroutine is released; C91_partial: with one waiting goroutine, that one."
  },
  {
   "property": "C92",
   "status": "partial",
   "theorems": [
    "Verif.C92_safe_partial",
    "Verif.C92_partial",
    "Verif.C92_waiting",
    "Verif.C92_refuted_cold",
    "Verif.C92_refuted_early",
    "Verif.C92_refuted_again",
    "Verif.C92_refuted_twice"
   ],
   "note": "False as stated (C92_refuted_cold: hangs while a partition is empty and another waits for it; C92_refuted_early: before the goroutines have begun the channel is closed under them, panic; C92_refuted_again: a second Close hangs; C92_refuted_twice: two at a time close the channel twice, panic). C92_partial, C92_safe_partial: hold for one Close after each partition has delivered a message at or after its start offset. C92_waiting: at most 512 messages wait between the partition goroutines and the dispatcher."
  },
  {
   "property": "C93",
   "status": "proved",
   "theorems": [
    "Verif.C93_topic",
    "Verif.C93_distinct"
   ],
   "note": ""
  },
  {
   "property": "C94",
   "status": "partial",
   "theorems": [
    "Verif.C94_asked_partial",
    "Verif.C94_told",
    "Verif.C94_why_partial",
    "Verif.C94_refuted"
   ],
   "note": "False as stated (C94_refuted: a websocket consumer in front answers \"unknown\", a null consumer \"null\"). C94_asked_partial: the first non-empty answer is returned; C94_why_partial: with a Kafka consumer in front it is that of the ordering layer. C94_told: the text tells the answer apart from every other."
  },
  {
   "property": "C95",
   "status": "proved",
   "theorems": [
    "Verif.C95_close",
    "Verif.C95_waiter",
    "Verif.C95_null_waiter",
    "Verif.C95_resolve",
    "Verif.C95_kinds"
   ],
   "note": ""
  },
  {
   "property": "C96",
   "status": "proved",
   "theorems": [
    "Verif.C96_message",
    "Verif.C96_notified"
   ],
   "note": ""
  },
  {
   "property": "C97",
   "status": "partial",
   "theorems": [
    "Verif.C97_partial",
    "Verif.C97_refuted"
   ],
   "note": "Refuted (C97_refuted): HandleReorg is called by the reading goroutine itself, while blocks go through a channel, so a reorg overtakes the blocks that wait there; the subscribers end on the abandoned block. C97_partial: the order is kept if each reorg is read only when the channel is empty."
  },
  {
   "property": "C98",
   "status": "proved",
   "theorems": [
    "Verif.C98_no_panic",
    "Verif.C98_exclusive",
    "Verif.C98_bounded"
   ],
   "note": ""
  },
  {
   "property": "C99",
   "status": "proved",
   "theorems": [
    "Verif.C99_stored",
    "Verif.C99_live"
   ],
   "note": ""
  },
  {
   "property": "C100",
   "status": "partial",
   "theorems": [
    "Verif.C100_partial",
    "Verif.C100_drained_partial",
    "Verif.C100_short_partial",
    "Verif.C100_ready_partial",
    "Verif.C100_leak_refuted",
    "Verif.C100_stall_refuted"
   ],
   "note": "Refuted twice: after its context is done the first goroutine goes on sending stored blocks without looking at the context, so with more than 1000 of them it blocks for ever (C100_leak_refuted); and if the channel fills up before ready is on it and the client leaves, the second goroutine waits for the first, nobody unsubscribes, and feed.Send blocks the producer and all other clients for ever (C100_stall_refuted). C100_partial: every execution ends, and everything is done unless there is such an abandoned client; in particular if the library reads on after a client left (C100_drained_partial), if everything fits the channel (C100_short_partial), or if clients leave only after the first goroutine has ended (C100_ready_partial)."
  },
  {
   "property": "C101",
   "status": "partial",
   "theorems": [
    "Verif.C101_partial",
    "Verif.C101_resumed_partial",
    "Verif.C101_starts_partial",
    "Verif.C101_chain_partial",
    "Verif.C101_refuted"
   ],
   "note": "Refuted for reorg thresholds below five (C101_refuted): the cache of 2*ReorgThreshold hashes never holds ten, so the early phase never ends and every block that connects to nothing is sent. C101_partial: at most nine such updates for thresholds of at least five; C101_resumed_partial: none with a last block; C101_starts_partial and C101_chain_partial: what is sent at once."
  },
  {
   "property": "C102",
   "status": "partial",
   "theorems": [
    "Verif.C102_partial",
    "Verif.C102_grant",
    "Verif.C102_returns_partial",
    "Verif.C102_refuted",
    "Verif.C102_refused"
   ],
   "note": "Refuted in both directions. When the connection breaks before the answer, break ends only the inner loop: the consumer announces the connection and Start returns without a subscription (C102_refuted). When the server refuses (an answer without a subscription id), the consumer waits for another answer on the same connection: Start neither returns nor tries again (C102_refused). C102_partial: if Start has returned and no connection was lost that way, a subscription has been granted; C102_returns_partial: when the answer with an id has arrived, Start returns."
  },
  {
   "property": "C103",
   "status": "proved",
   "theorems": [
    "Verif.C103_once",
    "Verif.C103_assembler",
    "Verif.C103_becomes"
   ],
   "note": ""
  },
  {
   "property": "C104",
   "status": "partial",
   "theorems": [
    "Verif.C104_partial",
    "Verif.C104_ends_partial",
    "Verif.C104_bound_partial",
    "Verif.C104_panics",
    "Verif.C104_survives",
    "Verif.C104_refuted"
   ],
   "note": "Refuted twice: during an outage c.conn is nil after a failed Dial and Close panics (C104_panics); while a new connection is being made Close closes the old one and returns, and the goroutine goes on with the new one for ever (C104_survives, C104_refuted). C104_partial: if Close is called while the consumer has a connection, alive or not, and is neither dialling nor pausing, it does not panic, no other connection is made and everything stops, within as many steps as there are unread messages and three (C104_ends_partial); at any time at most one more connection is made (C104_bound_partial)."
  },
  {
   "property": "C105",
   "status": "proved",
   "theorems": [
    "Verif.C105_delivered"
   ],
   "note": ""
  },
  {
   "property": "C106",
   "status": "proved",
   "theorems": [
    "Verif.C106_served",
    "Verif.C106_all"
   ],
   "note": ""
  },
  {
   "property": "C107",
   "status": "partial",
   "theorems": [
    "Verif.C107_partial",
    "Verif.C107_alone_partial",
    "Verif.C107_safe_partial",
    "Verif.C107_ends_partial",
    "Verif.C107_refuted_begin",
    "Verif.C107_refuted_late",
    "Verif.C107_refuted_missing"
   ],
   "note": "False as stated: the inner consumer begins one message before the end of its topic, so whatever was written before that is passed over (C107_refuted_begin); if the reorg is complete by then, its end makes the WaitGroup negative: panic (C107_refuted_late); if the topic does not exist, the error of Start is dropped and the consumer hangs (C107_refuted_missing). Proved for reorg topics of one partition that are still empty when the announcement is received, and a readiness timer that is slower than the messages."
  },
  {
   "property": "C108",
   "status": "partial",
   "theorems": [
    "Verif.C108_partial",
    "Verif.C108_earlier_partial",
    "Verif.C108_goes_on",
    "Verif.C108_refuted"
   ],
   "note": "False as stated: a message that is not an item (another answer, say) is taken for the last item again (C108_refuted, see C70). Proved for connections on which pings, items and items of other subscriptions follow the answer; C108_goes_on holds without that."
  },
  {
   "property": "C109",
   "status": "partial",
   "theorems": [
    "Verif.C109_sound",
    "Verif.C109_all",
    "Verif.C109_later",
    "Verif.C109_partial",
    "Verif.C109_ends",
    "Verif.C109_refuted",
    "Verif.C109_refuted_second",
    "Verif.C109_refuted_none"
   ],
   "note": "False as stated: a Kafka transport answers one call, a second call made before that waits for ever (C109_refuted); the goroutine of a second Kafka transport waits for ever because nobody receives from it (C109_refuted_second); without transports nobody is answered (C109_refuted_none). Proved: never before (C109_sound), all calls when a websocket or null transport is ready (C109_all), one call with any transport (C109_partial), every call made once a transport is ready for good (C109_later), and all executions are finite (C109_ends)."
  },
  {
   "property": "C110",
   "status": "partial",
   "theorems": [
    "Verif.C110_room",
    "Verif.C110_returns",
    "Verif.C110_partial",
    "Verif.C110_last",
    "Verif.C110_stays",
    "Verif.C110_refuted_busy",
    "Verif.C110_refuted_lost"
   ],
   "note": "False as stated: while items come less than 250 ms apart Close is not heard and gives up (C110_refuted_busy), after which the goroutine stays for ever (C110_stays); an item that comes when the timer fires can be lost (C110_refuted_lost). Proved: Close returns after at most a second (C110_returns), is heard when nothing comes (C110_partial), and only items of the last moment can be lost (C110_last). C110_room: at most a hundred items wait, and another can come as long as there are fewer."
  },
  {
   "property": "C111",
   "status": "proved",
   "theorems": [
    "Verif.C111_progress",
    "Verif.C111_head",
    "Verif.C111_end",
    "Verif.C111_published",
    "Verif.C111_order_needed"
   ],
   "note": "C111_order_needed shows by an execution that the condition cannot be dropped: with two partitions, one of them slow, a producer that sends parents first is not enough."
  },
  {
   "property": "C112",
   "status": "partial",
   "theorems": [
    "Verif.C112_order",
    "Verif.C112_all",
    "Verif.C112_close",
    "Verif.C112_stopped",
    "Verif.C112_ends",
    "Verif.C112_refuted_range",
    "Verif.C112_refuted_client",
    "Verif.C112_refuted",
    "Verif.C112_refuted_error",
    "Verif.C112_made",
    "Verif.C112_made_only",
    "Verif.C112_refuted_made"
   ],
   "note": "The delivery holds: order, no duplicates and no gap (C112_order), nothing lost at rest (C112_all), executions are finite (C112_ends), what Close closes (C112_close), goroutines end when Close went through and the reader goes on (C112_stopped), making (C112_made). The rest is false of the code: C112_refuted (goroutine blocked for ever, for every buffer size), C112_refuted_range, C112_refuted_client, C112_refuted_error, C112_refuted_made."
  },
  {
   "property": "C113",
   "status": "partial",
   "theorems": [
    "Verif.C113_numbers",
    "Verif.C113_wraps",
    "Verif.C113_words",
    "Verif.C113_defaults",
    "Verif.C113_alone",
    "Verif.C113_refuted",
    "Verif.C113_refuted_malformed"
   ],
   "note": "For numbers in range, words, defaults and independence: C113_numbers, C113_words, C113_defaults, C113_alone. False otherwise: C113_refuted (fetch.default=4294967297 is taken as 1) and C113_refuted_malformed. How net/url cuts a URL into user, host and options is not modelled."
  },
  {
   "property": "C114",
   "status": "proved",
   "theorems": [
    "Verif.C114_one",
    "Verif.C114_request",
    "Verif.C114_limit",
    "Verif.C114_all",
    "Verif.C114_nothing_else",
    "Verif.C114_succeeds"
   ],
   "note": ""
  },
  {
   "property": "C115",
   "status": "partial",
   "theorems": [
    "Verif.C115_waiter",
    "Verif.C115_waiter_ends",
    "Verif.C115_one_transport",
    "Verif.C115_iff",
    "Verif.C115_two_dispatchers_refuted",
    "Verif.C115_kafka_websocket_refuted",
    "Verif.C115_two_websockets_refuted",
    "Verif.C115_reorg_refuted",
    "Verif.C115_pings_refuted",
    "Verif.C115_why_refuted",
    "Verif.C115_why_ordering_refuted"
   ],
   "note": "Holds for the waiter with any number of goroutines (C115_waiter, C115_waiter_ends) and for one transport with its ordering layer, heartbeats and waiter (C115_one_transport). Not for two transports of a multiplexer, which share a MessageProcessor without a lock, nor for a nested reorg consumer that still runs, WhyNotReady, ProducerCount and the reorg notifications of a websocket: refutations are theorems, and C115_iff says exactly when lock-free programs race."
  },
  {
   "property": "C116",
   "status": "partial",
   "theorems": [
    "Verif.C116_no_panic_partial",
    "Verif.C116_end_partial",
    "Verif.C116_one_partial",
    "Verif.C116_states",
    "Verif.C116_iff",
    "Verif.C116_refuted"
   ],
   "note": "Proved when no two goroutines call Done on the same block with a channel (any number of calls by one goroutine is fine): C116_no_panic_partial, C116_end_partial, C116_one_partial. C116_iff says that this is exactly when no panic is possible; C116_refuted is the case of two or more subscribers of one feed. C116_states: the hypothesis on channels holds in every state of the waiter's system."
  },
  {
   "property": "C117",
   "status": "partial",
   "theorems": [
    "Verif.C117_one_place_partial",
    "Verif.C117_bound_partial",
    "Verif.C117_empty_partial",
    "Verif.C117_behind",
    "Verif.C117_orphans_refuted",
    "Verif.C117_dropped_refuted",
    "Verif.C117_decode_refuted",
    "Verif.C117_merged_refuted"
   ],
   "note": "C117_one_place_partial and C117_bound_partial: one place per block and at most one entry per block seen, if sub-batch headers decode. C117_empty_partial: nothing is left of up to 2*ReorgThreshold completely arrived blocks but the notes of their emission. C117_behind: a request to drop old blocks leaves none of them in assembly except the one whose header is processed at that moment. C117_orphans_refuted, C117_dropped_refuted: no bound independent of the number of lost messages; C117_decode_refuted: two places after an undecodable sub-batch header; C117_merged_refuted: also when a complete block arrives while messages of it are queued."
  },
  {
   "property": "C118",
   "status": "partial",
   "theorems": [
    "Verif.C118_text_partial",
    "Verif.C118_same_partial",
    "Verif.C118_model",
    "Verif.C118_connection_partial",
    "Verif.C118_block_partial",
    "Verif.C118_bytes",
    "Verif.C118_other",
    "Verif.C118_weight_refuted",
    "Verif.C118_extra_member",
    "Verif.C118_note_extra",
    "Verif.C118_wrong_kind",
    "Verif.C118_unreadable",
    "Verif.C118_ends",
    "Verif.C118_no_object",
    "Verif.C118_twice",
    "Verif.C118_hollow_refuted"
   ],
   "note": "C118_text_partial: the text of any message with number below 2^64 and weight in [0, 2^256) is taken for that message, strings passed through jsonString. C118_same_partial: the same message if strings are UTF-8. C118_model: what is read is what TBatch.json and TSub.json of Model/Websocket say, so these are theorems about the text. C118_connection_partial: the same for whole connections. C118_block_partial: C54 with bytes in place of messages. C118_bytes: for any bytes at all the loop does what WConn.frames does for the frames that the bytes are. C118_other: notifications of other subscriptions. C118_extra_member: members that are not known. C118_weight_refuted: weights out of range. C118_wrong_kind: values of the wrong kind for maps and lists are passed over. C118_unreadable: a number, hash or parent that is no string ends the reading. C118_hollow_refuted: a notification that names a block, sub-batch or reorg and does not contain it makes the consumer panic."
  },
  {
   "property": "C119",
   "status": "proved",
   "theorems": [
    "Verif.C119_head",
    "Verif.C119_end",
    "Verif.C119_no_fault",
    "Verif.C119_shallow"
   ],
   "note": "C119_head: while running; C119_end: when all is handled; C119_no_fault. The hypotheses speak of messages and headers only. C119_shallow: a simple sufficient condition on the order (numbers fall back at most d, forks at most D deep, at most w blocks per number, w*(d+D+1) and w*(2d+1) at most 2*ReorgThreshold). C37_asked (new): every request sent carries the number of a forgotten block."
  },
  {
   "property": "C120",
   "status": "proved",
   "theorems": [
    "Verif.C120_head",
    "Verif.C120_end",
    "Verif.C120_one",
    "Verif.C120_published"
   ],
   "note": "C120_head and C120_end: any number of partitions, when what is read completes the blocks in order (C119). C120_one: with one partition the order of reading is that of the partition. C120_published: with the producer. Needs the warm-up message of C67; no reorg topics (C111)."
  },
  {
   "property": "C121",
   "status": "proved",
   "theorems": [
    "Verif.C121_head",
    "Verif.C121_end",
    "Verif.C121_published"
   ],
   "note": "C121_head and C121_end: any list of connections whose items carry the blocks. C121_published: one connection to a producer. No reorg notifications (C86 has them for one connection)."
  },
  {
   "property": "C122",
   "status": "proved",
   "theorems": [
    "Verif.C122_served",
    "Verif.C122_rest",
    "Verif.C122_all",
    "Verif.C122_forks",
    "Verif.C122_no_endless"
   ],
   "note": "C122_served: no fault, an initial part in order, the next request. C122_rest: no deadlock. C122_all: complete at rest. C122_no_endless: no endless work. C122_forks: trees of blocks. Frames that are not items of the subscription may come (pings, and those before the subscription is granted); `Clean` excludes those that make the code handle an item twice (C108)."
  },
  {
   "property": "C123",
   "status": "proved",
   "theorems": [
    "Verif.C123_served",
    "Verif.C123_all"
   ],
   "note": "C123_served: at any moment; C123_all: at the end. Hypothesis: a client is subscribed between two blocks, not between a block and its sub-batches. Positions in the feed are recorded by the ghost field `since`."
  },
  {
   "property": "C124",
   "status": "partial",
   "theorems": [
    "Verif.C124_weights",
    "Verif.C124_zero_partial",
    "Verif.C124_chain",
    "Verif.C124_fresh",
    "Verif.C124_crash_refuted",
    "Verif.C124_runs_refuted",
    "Verif.C124_text"
   ],
   "note": "C124_weights: with all weights the model with nil is the one of the other properties. C124_zero_partial: otherwise the consumer crashes or behaves as with zero. C124_chain and C124_fresh: along one chain it does not crash. C124_crash_refuted, C124_runs_refuted: beside the head it does. C124_text: where such blocks come from."
  },
  {
   "property": "C125",
   "status": "proved",
   "theorems": [
    "Verif.C125_grammar",
    "Verif.C125_rfc",
    "Verif.C125_strings",
    "Verif.C125_unambiguous",
    "Verif.C125_message",
    "Verif.C125_hex",
    "Verif.C125_names"
   ],
   "note": "C125_grammar: the parser and the grammar agree. C125_rfc: the standard is included. C125_strings, C125_unambiguous, C125_hex, C125_names: literals, numbers, bytes and names. C125_message: the message. encoding/json and hexutil are modelled from their documentation and source as known, they are not in /repo."
  },
  {
   "property": "C126",
   "status": "proved",
   "theorems": [
    "Verif.C126_answer",
    "Verif.C126_first",
    "Verif.C126_server",
    "Verif.C126_not_answer",
    "Verif.C126_unread",
    "Verif.C126_request",
    "Verif.C126_connection",
    "Verif.C126_waiting"
   ],
   "note": "C126_answer: which messages are answers. C126_first: the first one counts. C126_server: the server's answer is one. C126_not_answer, C126_waiting: what is not, and that nothing happens without one. C126_connection: a connection from the call on. C126_unread: an answer that arrives later changes nothing. C126_request: the request. The types rpc.Call and rpc.Response are not in /repo and are taken to have the members of JSON-RPC."
  },
  {
   "property": "C127",
   "status": "proved",
   "theorems": [
    "Verif.C127_search",
    "Verif.C127_rounds",
    "Verif.C127_rooted",
    "Verif.C127_message",
    "Verif.C127_header"
   ],
   "note": "C127_message: all messages but block headers. C127_header: block headers. C127_search, C127_rooted, C127_rounds: the search of DecPrefixCounter, in particular that the bound on its rounds in the model is never the reason for not returning. This turns C12 and C13, which the code refutes, into an exact statement."
  },
  {
   "property": "C128",
   "status": "proved",
   "theorems": [
    "Verif.C128_ends",
    "Verif.C128_heavier",
    "Verif.C128_round",
    "Verif.C128_circle",
    "Verif.C128_three"
   ],
   "note": "C128_ends: no circle. C128_heavier: blocks heavier than their parents. C128_round, C128_circle, C128_three: with a circle the search does not end, however many rounds it is given. C36 is the case of numbers that go up by one."
  },
  {
   "property": "C129",
   "status": "proved",
   "theorems": [
    "Verif.C129_ordering",
    "Verif.C129_always",
    "Verif.C129_end",
    "Verif.C129_completes"
   ],
   "note": "C129_ordering: the ordering layer, with no bound on numbers. C129_always, C129_end, C129_completes: the whole consumer."
  },
  {
   "property": "C130",
   "status": "proved",
   "theorems": [
    "Verif.C130_lives",
    "Verif.C130_calm",
    "Verif.C130_end",
    "Verif.C130_resumed"
   ],
   "note": "C130_lives, C130_calm: safety over all lives. C130_end: completion. C130_resumed: completion from resumption tokens, with the rollback condition of C78 (known to be needed, C78_refuted)."
  },
  {
   "property": "C131",
   "status": "partial",
   "theorems": [
    "Verif.C131_heaviest_partial",
    "Verif.C131_aside",
    "Verif.C131_never_refuted",
    "Verif.C131_refuted_before",
    "Verif.C131_refuted_late",
    "Verif.C131_no_fault",
    "Verif.C131_head_partial",
    "Verif.C131_end_partial"
   ],
   "note": "C131_heaviest_partial: the ordering layer. C131_head_partial, C131_end_partial: the whole consumer, while running and at the end. C131_no_fault: no faults in any order. C131_never_refuted: for every stored block, parent and fork of any length, received fork first, the consumer never leaves the stored block. C131_refuted_before, C131_refuted_late: neither condition on the order can be dropped. C131_aside: blocks with no connection are only queued."
  },
  {
   "property": "C132",
   "status": "partial",
   "theorems": [
    "Verif.C132_from_time",
    "Verif.C132_few_partial",
    "Verif.C132_future",
    "Verif.C132_refuted_future",
    "Verif.C132_refuted_zero"
   ],
   "note": "C132_from_time: nothing is lost. C132_few_partial: how much is read besides, if there is a message of that time and its offset is at least the rollback. C132_future: otherwise all of the partition is read. C132_refuted_future, C132_refuted_zero: the unconditional claims are false. The broker's answer for a time is that of Kafka's ListOffsets (trusted)."
  },
  {
   "property": "C133",
   "status": "partial",
   "theorems": [
    "Verif.C133_lives",
    "Verif.C133_string",
    "Verif.C133_progress",
    "Verif.C133_rest",
    "Verif.C133_end_partial",
    "Verif.C133_starts",
    "Verif.C133_single_partial",
    "Verif.C133_refuted_retention"
   ],
   "note": "C133_lives, C133_string, C133_starts, C133_progress, C133_rest hold without conditions on retention beyond what they say. C133_end_partial and C133_single_partial need the rollback window to be kept; C133_refuted_retention shows that this is needed. C133_progress needs at least one message from every partition (C67)."
  },
  {
   "property": "C134",
   "status": "partial",
   "theorems": [
    "Verif.C134_settles",
    "Verif.C134_rest",
    "Verif.C134_nothing",
    "Verif.C134_stays",
    "Verif.C134_bound_refuted"
   ],
   "note": "C134_settles, C134_rest, C134_nothing, C134_stays hold. C134_bound_refuted: the waiter keeps any number of goroutines and entries for heights that are long done."
  },
  {
   "property": "C135",
   "status": "proved",
   "theorems": [
    "Verif.C135_announced",
    "Verif.C135_origin",
    "Verif.C135_pending",
    "Verif.C135_waiter"
   ],
   "note": "C135_announced, C135_origin and C135_pending hold for every sequence of calls; C135_waiter connects the model of the message processor with the transition system of the waiter (C55-C57, C134), whose steps newBlock and complete were until now only justified by inspection."
  },
  {
   "property": "C136",
   "status": "partial",
   "theorems": [
    "Verif.C136_processor",
    "Verif.C136_delivered",
    "Verif.C136_always",
    "Verif.C136_end",
    "Verif.C136_completes",
    "Verif.C136_exact_partial",
    "Verif.C136_filter_refuted"
   ],
   "note": "C136_processor, C136_delivered, C136_always, C136_end and C136_completes are proved for all sequences of calls. That the contents do not depend on the transport holds for a consumer that tracks everything (C136_exact_partial) and fails otherwise (C136_filter_refuted): blocks from a websocket are not filtered by the tracked prefixes. Calls at the same time are not covered (C115 shows they are data races)."
  },
  {
   "property": "C137",
   "status": "proved",
   "theorems": [
    "Verif.C137_union",
    "Verif.C137_keys",
    "Verif.C137_arrive",
    "Verif.C137_delivered",
    "Verif.C137_end_to_end",
    "Verif.C137_schemas_matter"
   ],
   "note": "All end-to-end theorems (C01, C02, C04, C09, C11, C14, C43, C44, C60 and everything built on SentBlock.Correct) use the same notion of produced messages, and so hold for redundant producers. C137_schemas_matter shows that the condition on schemas is needed."
  },
  {
   "property": "C138",
   "status": "proved",
   "theorems": [
    "Verif.C138_numbers",
    "Verif.C138_accepted",
    "Verif.C138_meaning",
    "Verif.C138_total",
    "Verif.C138_nothing"
   ],
   "note": "C138_total shows that every string has exactly one division into parts, so that C138_accepted and C138_meaning speak about every string. strconv.Atoi itself is modelled (C138_numbers), not proved from its source."
  },
  {
   "property": "C139",
   "status": "proved",
   "theorems": [
    "Verif.C139_lives",
    "Verif.C139_calm",
    "Verif.C139_rest",
    "Verif.C139_end",
    "Verif.C139_possible"
   ],
   "note": "The server is given by Spec.Answers, as in C122; C123 shows that the server of this repository answers in this way."
  },
  {
   "property": "C140",
   "status": "proved",
   "theorems": [
    "Verif.C140_exact",
    "Verif.C140_delivered",
    "Verif.C140_total",
    "Verif.C140_producer",
    "Verif.C140_needs_dirs",
    "Verif.C140_needs_tidy",
    "Verif.C140_needs_id",
    "Verif.C140_needs_value"
   ],
   "note": "Spec.Payload is written from SPEC.md without the producer model; the worked example of SPEC_example.md is the example. C140_needs_dirs, C140_needs_tidy, C140_needs_id and C140_needs_value show that the extra conditions are needed."
  },
  {
   "property": "C141",
   "status": "partial",
   "theorems": [
    "Verif.C141_found",
    "Verif.C141_matches",
    "Verif.C141_grammar",
    "Verif.C141_unambiguous",
    "Verif.C141_anchored",
    "Verif.C141_directory",
    "Verif.C141_literal",
    "Verif.C141_wellFormed",
    "Verif.C141_delivered",
    "Verif.C141_alternation_refuted",
    "Verif.C141_no_directory_refuted",
    "Verif.C141_optional_anchor_refuted"
   ],
   "note": "Proved for all entries without top-level alternation that end in a slash, and for all schemas of such expressions at fixed depth. Refuted for schemas in general by three accepted schemas whose blocks never come out."
  },
  {
   "property": "C142",
   "status": "partial",
   "theorems": [
    "Verif.C142_routes",
    "Verif.C142_redundant",
    "Verif.C142_overlap_refuted"
   ],
   "note": "Proved for schemas of directory expressions that are apart; refuted for overlapping expressions that NewProducer accepts."
  },
  {
   "property": "C143",
   "status": "partial",
   "theorems": [
    "Verif.C143_literal",
    "Verif.C143_anchored",
    "Verif.C143_union",
    "Verif.C143_all",
    "Verif.C143_some",
    "Verif.C143_prefix_refuted"
   ],
   "note": "The exact characterisations are proved; that tracked prefixes are prefixes is refuted."
  },
  {
   "property": "C144",
   "status": "partial",
   "theorems": [
    "Verif.C144_never_refuted",
    "Verif.C144_compiling",
    "Verif.C144_dot_star"
   ],
   "note": "Refuted by the code as it is; proved for every expression that compiles."
  },
  {
   "property": "C145",
   "status": "proved",
   "theorems": [
    "Verif.C145_chain",
    "Verif.C145_chain_no_fault",
    "Verif.C145_head",
    "Verif.C145_end",
    "Verif.C145_no_fault"
   ],
   "note": "Chains: any length and order. Forks: as C86, within the window of remembered blocks; parents first."
  },
  {
   "property": "C146",
   "status": "proved",
   "theorems": [
    "Verif.C146_goroutines",
    "Verif.C146_in_order",
    "Verif.C146_all",
    "Verif.C146_completes",
    "Verif.C146_pace",
    "Verif.C146_ahead",
    "Verif.C146_stalled",
    "Verif.C146_stalled_caller",
    "Verif.C146_end",
    "Verif.C146_no_fault",
    "Verif.C146_across",
    "Verif.C146_together",
    "Verif.C146_apart"
   ],
   "note": "event.Feed (a dependency) is assumed to behave as documented: Send offers the value to all channels subscribed when it starts and returns when each has accepted it or was unsubscribed."
  },
  {
   "property": "C147",
   "status": "proved",
   "theorems": [
    "Verif.C147_when",
    "Verif.C147_order",
    "Verif.C147_head",
    "Verif.C147_end"
   ],
   "note": "Extends C86 (parents first) to the orders of C39; that the condition on gaps cannot be dropped is C39_refuted."
  },
  {
   "property": "C148",
   "status": "proved",
   "theorems": [
    "Verif.C148_stored",
    "Verif.C148_lives",
    "Verif.C148_end",
    "Verif.C148_kafka_progress",
    "Verif.C148_kafka",
    "Verif.C148_kafka_end",
    "Verif.C148_partition",
    "Verif.C148_partition_end"
   ],
   "note": "Extends C133 (chains) to forks and C131 (one life) to any number of lives. The orders excluded are those of C131_refuted_before, C131_refuted_late and C131_never_refuted."
  },
  {
   "property": "C149",
   "status": "partial",
   "theorems": [
    "Verif.C149_told",
    "Verif.C149_partition_told",
    "Verif.C149_end_partial",
    "Verif.C149_refuted"
   ],
   "note": "False for the code: `C149_refuted`. The exact condition under which it holds is in `C149_end_partial`."
  },
  {
   "property": "C150",
   "status": "proved",
   "theorems": [
    "Verif.C150_progress",
    "Verif.C150_head",
    "Verif.C150_stored",
    "Verif.C150_lives",
    "Verif.C150_end",
    "Verif.C150_published"
   ],
   "note": "C148 for the websocket transport; extends C89 to forks from below the stored block and to any number of lives. Unlike C148 nothing need be assumed of eviction requests: websocket blocks do not pass through the batches that are evicted. The orders excluded are those of C131_refuted_before, C131_refuted_late and C131_never_refuted."
  },
  {
   "property": "C151",
   "status": "partial",
   "theorems": [
    "Verif.C151_conversation",
    "Verif.C151_panics",
    "Verif.C151_fresh_partial",
    "Verif.C151_again_refuted"
   ],
   "note": "xdg/scram is a parameter of the model. That Sarama makes a new client for every connection and stops after a refused Begin is the condition of C151_fresh_partial; without it C151_again_refuted."
  },
  {
   "property": "C152",
   "status": "partial",
   "theorems": [
    "Verif.C152_protocol",
    "Verif.C152_made",
    "Verif.C152_producers",
    "Verif.C152_beats",
    "Verif.C152_served_partial",
    "Verif.C152_failed",
    "Verif.C152_clean_partial",
    "Verif.C152_again_refuted",
    "Verif.C152_clean_refuted",
    "Verif.C152_phantom_refuted"
   ],
   "note": "url.Parse and what the brokers answer are parameters. A server gets its port unless it is taken, before the next server is made. C152_failed says exactly what stays behind; refuted: C152_clean_refuted, C152_phantom_refuted, C152_again_refuted."
  },
  {
   "property": "C153",
   "status": "proved",
   "theorems": [
    "Verif.C153_transports",
    "Verif.C153_head",
    "Verif.C153_end",
    "Verif.C153_exact",
    "Verif.C153_no_fault"
   ],
   "note": "A tree with C136's mixture of calls. C153_transports: the order within each transport is enough. C153_exact needs a consumer that tracks everything, because complete blocks are not filtered (C136_filter_refuted)."
  },
  {
   "property": "C154",
   "status": "proved",
   "theorems": [
    "Verif.C154_head",
    "Verif.C154_no_fault",
    "Verif.C154_end",
    "Verif.C154_stored",
    "Verif.C154_lives",
    "Verif.C154_lives_end",
    "Verif.C154_exact",
    "Verif.C154_transports"
   ],
   "note": "C148 and C150 with C153's mixture of calls. C154_transports and C153_transports: the order within each transport is enough. W is any set of whole blocks containing those handed over in any life; C154_exact is about whole blocks with all their values and a consumer that tracks everything."
  },
  {
   "property": "C155",
   "status": "proved",
   "theorems": [
    "Verif.C155_websocket",
    "Verif.C155_calls",
    "Verif.C155_running",
    "Verif.C155_end",
    "Verif.C155_published"
   ],
   "note": "C153 with the transports and the producers of C89 and C111 in front. The calls of ProcessMessage and ProcessCompleteBatch are atomic (see C136). One partition; several are covered by C153 with C111's condition on each of them. For consumers that do not track everything see C136_filter_refuted."
  },
  {
   "property": "C156",
   "status": "proved",
   "theorems": [
    "Verif.C156_received",
    "Verif.C156_chain",
    "Verif.C156_needs_hashes"
   ],
   "note": "C156_received, C156_chain; C156_needs_hashes shows that the condition on hashes is needed. Calls that would end the process are excluded by the execution existing (C127 says which they are)."
  },
  {
   "property": "C157",
   "status": "proved",
   "theorems": [
    "Verif.C157_kafka",
    "Verif.C157_websocket",
    "Verif.C157_websocket_chain",
    "Verif.C157_needs_same_parts"
   ],
   "note": "C157_kafka, C157_websocket, C157_websocket_chain; C157_needs_same_parts shows that the condition on sub-batches is needed."
  },
  {
   "property": "C158",
   "status": "proved",
   "theorems": [
    "Verif.C158_received",
    "Verif.C158_applies",
    "Verif.C158_needs_reorgs"
   ],
   "note": "C158_received, C158_applies; C158_needs_reorgs shows that the condition on reorgs is needed."
  },
  {
   "property": "C159",
   "status": "proved",
   "theorems": [
    "Verif.C159_in_order",
    "Verif.C159_all",
    "Verif.C159_applies",
    "Verif.C159_needs_unbuffered"
   ],
   "note": "C159_in_order, C159_all, C159_applies; C159_needs_unbuffered shows that buffers must be empty. event.Feed is assumed to behave as documented (Verif/Model/Subscribers.lean)."
  },
  {
   "property": "C160",
   "status": "proved",
   "theorems": [
    "Verif.C160_total",
    "Verif.C160_head",
    "Verif.C160_end",
    "Verif.C160_no_fault",
    "Verif.C160_chain",
    "Verif.C160_chain_no_fault",
    "Verif.C160_needs_noHeader"
   ],
   "note": "C160_total (message processor), C160_no_fault, C160_head, C160_end (trees), C160_chain, C160_chain_no_fault (chains in any order); C160_needs_noHeader shows that the condition on headers is needed."
  },
  {
   "property": "C161",
   "status": "proved",
   "theorems": [
    "Verif.C161_progress",
    "Verif.C161_head",
    "Verif.C161_end",
    "Verif.C161_chain_progress",
    "Verif.C161_chain"
   ],
   "note": "C161_progress, C161_head, C161_end (trees), C161_chain_progress, C161_chain (chains in any order). Each partition must hold a message at or after the offset its reader starts from, as in C111."
  },
  {
   "property": "C162",
   "status": "proved",
   "theorems": [
    "Verif.C162_unchanged",
    "Verif.C162_order",
    "Verif.C162_all",
    "Verif.C162_progress",
    "Verif.C162_needs_readers"
   ],
   "note": "C162_unchanged, C162_order, C162_all, C162_progress; C162_needs_readers shows what happens if a subscriber appends to Added(). What PendingBatch.Done does (and that two calls on one block may panic) is C116."
  }
 ]
}