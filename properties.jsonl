{"id": "C01", "title": "A fully delivered block is emitted, whatever the order and duplication", "statement": "Take a block sent with Producer.AddBlock and whose sub-batches were all sent with SendBatch. If every one of the resulting messages is passed to MessageProcessor.ProcessMessage at least once, in any order, with any duplicates and interleaved with messages of other blocks, then the subscriber receives that block. (Conditions: values are non-empty, each schema match is a directory prefix of the key and matches are not nested, a key is used for one purpose only, counters fit in 32 bits, and the block is not evicted as too old.)", "quantifier": "all blocks (keys, values, sub-batches of any number and size), all schemas and tracked-prefix filters, all delivery orders with arbitrary duplication and interleaving, all Go map iteration orders", "why_tests_cant": "The existing tests shuffle one fixed block; the set of orders, duplications, payloads and map iteration orders is infinite.", "anchors": ["delivery/producer.go: Producer.AddBlock, Producer.SendBatch", "delivery/consumer.go: MessageProcessor.ProcessMessage, PendingBatch.ApplyMessage, PendingBatch.DecPrefixCounter, PendingBatch.Ready"]}
{"id": "C02", "title": "An emitted block is exact: never early, nothing missing, nothing extra", "statement": "Whenever a MessageProcessor fed only with messages a correct producer made for a block emits that block, the emitted PendingBatch has the Number, Weight, ParentHash and Hash given to AddBlock, its Values are exactly the tracked updates (block updates and sub-batch updates) with their values, and its Deletes are exactly the tracked deletes. In particular it is not emitted before all of them have arrived.", "quantifier": "all blocks, schemas, tracked prefixes, all delivery prefixes, orders and duplications, all map iteration orders, arbitrary messages of other blocks in between", "why_tests_cant": "Early emission depends on the relative order of counters, duplicates and sub-batch headers; only a proof covers all interleavings.", "anchors": ["delivery/consumer.go: MessageProcessor.ProcessMessage, PendingBatch.ApplyMessage, PendingBatch.Ready"]}
{"id": "C03", "title": "A block is emitted at most once while remembered", "statement": "For any sequence of messages whatsoever, between two emissions of the same block hash by ProcessMessage there is either a Reorg message or at least 2*ReorgThreshold emissions of other blocks.", "quantifier": "all message sequences including malformed and adversarial ones, all thresholds, all eviction requests", "why_tests_cant": "Requires reasoning about the LRU contents over unbounded histories.", "anchors": ["delivery/consumer.go: MessageProcessor.ProcessMessage, MessageProcessor.completed", "github.com/hashicorp/golang-lru Cache"]}
{"id": "C04", "title": "The delivered block does not depend on order or duplication", "statement": "Two consumers with the same configuration that are fed the messages of one block in two different orders and with different duplicates, each getting every message at least once, emit blocks with the same Number, Weight, ParentHash, Values and Deletes.", "quantifier": "all pairs of delivery sequences covering the same message set", "why_tests_cant": "Pairs of schedules cannot be enumerated.", "anchors": ["delivery/consumer.go: MessageProcessor.ProcessMessage"]}
{"id": "C05", "title": "Blocks do not contaminate each other", "statement": "What a MessageProcessor does with a message of one block never changes the collected data, counters, queued messages or readiness of any other block; the content of an emitted block is a function of the messages carrying its hash only.", "quantifier": "all states and all messages of other hashes, except Reorg messages and eviction requests", "why_tests_cant": "Non-interference over all states.", "anchors": ["delivery/consumer.go: MessageProcessor.ProcessMessage, queueMessage"]}
{"id": "C06", "title": "Untracked prefixes never leak into emitted blocks", "statement": "If none of the entries of a batch header that the tracked-prefix filter accepts is a value, delete, count or sub-batch, the block is emitted immediately and empty; and for any message sequence, every value or delete in an emitted block comes from an accepted entry: an accepted inline value/delete, a BatchMsg/BatchDeleteMsg counted against an accepted prefix, or a message of an accepted sub-batch.", "quantifier": "all filters, headers and message sequences", "why_tests_cant": "All filters and inputs.", "anchors": ["delivery/consumer.go: MessageProcessor.ProcessMessage lines 341-359"]}
{"id": "C07", "title": "Resumption offsets never skip a message of the block", "statement": "For every emitted block and every message that was delivered for it while it was being assembled, the Resumption() of the block contains the message's source with an offset not greater than the message's offset; and every offset in Resumption() is the offset of a message that was really received from that source.", "quantifier": "all message sequences, sources, offsets, duplicates and orders", "why_tests_cant": "Depends on the whole history of offsets per source.", "anchors": ["delivery/consumer.go: PendingBatch.Resumption, updateResumption, resumptionCopy"]}
{"id": "C08", "title": "Resumption tokens survive the round trip", "statement": "Parsing the string returned by PendingBatch.Resumption() with the Kafka consumer's resumption parser yields exactly the recorded source->offset map, whenever source names contain neither ';' nor '='.", "quantifier": "all resumption maps (any number of sources), all int64 offsets including negative ones", "why_tests_cant": "String round trip over an infinite domain.", "anchors": ["delivery/consumer.go: PendingBatch.Resumption", "transports/kafka.go: kafkaConsumerWithOMP lines 477-484"]}
{"id": "C09", "title": "Restarting from a Resumption token rebuilds the block", "statement": "If a block was emitted by one consumer, then a fresh consumer with the same configuration that is fed, from each source, all messages at or after the offset recorded in the block's Resumption() emits the same block again.", "quantifier": "all logs, all interleavings before and after the restart", "why_tests_cant": "Quantifies over crash points and replays.", "anchors": ["delivery/consumer.go: PendingBatch.Resumption, MessageProcessor.ProcessMessage"]}
{"id": "C10", "title": "Blocks dropped as too old stay dropped", "statement": "Once a pending block has been dropped because the ordering layer asked to evict blocks older than n, no later message sequence makes the processor emit that hash again unless a Reorg message is processed.", "quantifier": "all message sequences after the eviction", "why_tests_cant": "Unbounded continuations.", "anchors": ["delivery/consumer.go: MessageProcessor.ProcessMessage lines 272-285, 302"]}
{"id": "C11", "title": "Reorg messages are announced and re-open emission", "statement": "Processing a Reorg message announces exactly the hash and number it carries to reorg subscribers, emits no block, and afterwards previously emitted or dropped blocks can be assembled and emitted again; blocks being assembled keep their progress.", "quantifier": "all states and Reorg messages", "why_tests_cant": "All states.", "anchors": ["delivery/consumer.go: MessageProcessor.ProcessMessage lines 288-300"]}
{"id": "C12", "title": "No message can crash the consumer", "statement": "ProcessMessage returns (with or without error) for every message; it never panics. [This is false of the code: keys shorter than 33 bytes, sub-batch indices outside the announced count and negative counts panic. It holds for messages whose key and counts are well formed.]", "quantifier": "all consumer states and all message keys/values", "why_tests_cant": "Adversarial inputs.", "anchors": ["delivery/consumer.go: MessageProcessor.ProcessMessage, PendingBatch.ApplyMessage"]}
{"id": "C13", "title": "ProcessMessage always terminates", "statement": "Matching a BatchMsg/BatchDeleteMsg path against the pending prefixes terminates for every path. [False of the code: a path starting with '/' that matches no counted prefix loops forever. Holds for every relative path.]", "quantifier": "all paths and all prefix tables", "why_tests_cant": "Non-termination is invisible to finite tests; needs a termination argument.", "anchors": ["delivery/consumer.go: PendingBatch.DecPrefixCounter lines 158-171"]}
{"id": "C14", "title": "A consistent stream never triggers the reconstruct failure panic", "statement": "With FailedReconstructPanic set, feeding the messages of correctly produced blocks in any order and with any duplication never panics.", "quantifier": "all blocks and delivery sequences as in C01", "why_tests_cant": "All interleavings.", "anchors": ["delivery/consumer.go: PendingBatch.DecPrefixCounter"]}
{"id": "C15", "title": "WhyNotReady says 'ready' only for complete blocks", "statement": "WhyNotReady reports 'ready' for a pending block exactly when nothing is missing. [False of the code: missing sub-batch messages are reported as 'ready'. The converse direction, and both directions when no sub-batch message is missing, hold.]", "quantifier": "all pending-batch states", "why_tests_cant": "All states.", "anchors": ["delivery/consumer.go: PendingBatch.whyNotReady, PendingBatch.Ready"]}
{"id": "C16", "title": "Empty values are transported like any other value", "statement": "C01 and C02 also hold for updates whose value is empty. [False of the code: a duplicated BatchMsg with an empty value decrements its prefix counter twice so the block is emitted incomplete, and an empty inline value is dropped.]", "quantifier": "all blocks with empty values", "why_tests_cant": "Needs particular duplicates in particular orders.", "anchors": ["delivery/consumer.go: PendingBatch.ApplyMessage line 129, MessageProcessor.ProcessMessage line 351"]}
{"id": "C17", "title": "Announced counts equal the messages sent", "statement": "For every successful AddBlock, each prefix entry of the batch header announces exactly as many messages as were produced for keys matched to that prefix, and no prefix with messages is left out.", "quantifier": "all schemas, updates, deletes, batches and map iteration orders", "why_tests_cant": "All inputs.", "anchors": ["delivery/producer.go: Producer.AddBlock"]}
{"id": "C18", "title": "AddBlock transports every key exactly once and invents nothing", "statement": "After a successful AddBlock every update and every delete is carried either by exactly one message whose key ends in the update key (schema match) or by an inline header entry (no match); every sub-batch appears in the header with its id; and every message or header entry produced stems from an argument. (Condition: no unmatched key is both updated and deleted.)", "quantifier": "all arguments, schemas and map iteration orders", "why_tests_cant": "All inputs.", "anchors": ["delivery/producer.go: Producer.AddBlock"]}
{"id": "C19", "title": "Messages go to the topic their schema entry names", "statement": "AddBlock puts each message into the topic of the first schema entry matching its key, the batch header and nothing else of its kind into the default topic, and SendBatch puts all messages of a sub-batch into the topic of the schema entry matching the sub-batch's path, or the default topic.", "quantifier": "all schemas and arguments", "why_tests_cant": "All inputs.", "anchors": ["delivery/producer.go: Producer.AddBlock, Producer.SendBatch"]}
{"id": "C20", "title": "AddBlock rejects invalid and conflicting sub-batches", "statement": "AddBlock fails with ErrInvalidBatch or ErrPrefixConflict whenever a sub-batch id is zero, a sub-batch path equals an inline key, or a counted prefix equals an inline key or sub-batch path; and it succeeds otherwise.", "quantifier": "all arguments, schemas and map iteration orders", "why_tests_cant": "All inputs.", "anchors": ["delivery/producer.go: Producer.AddBlock"]}
{"id": "C21", "title": "SendBatch produces a complete, gap-free, deterministic sub-batch", "statement": "SendBatch produces one header announcing n followed by exactly n messages with indices 0..n-1, carrying the delete list (if any) first and then each update once in ascending key order, all keyed by the block and batch id; the result does not depend on map iteration order.", "quantifier": "all delete lists, update maps and map iteration orders", "why_tests_cant": "All inputs.", "anchors": ["delivery/producer.go: Producer.SendBatch"]}
{"id": "C22", "title": "A sub-batch can be sent exactly once per registration", "statement": "SendBatch succeeds exactly for batch ids registered by an AddBlock and not sent since; a second SendBatch of the same id fails with ErrUnknownBatch and produces nothing.", "quantifier": "all histories of AddBlock and SendBatch calls", "why_tests_cant": "All histories.", "anchors": ["delivery/producer.go: Producer.SendBatch, Producer.AddBlock"]}
{"id": "C23", "title": "A failed AddBlock leaves no trace", "statement": "If AddBlock returns an error, the producer behaves afterwards as if the call had not been made. [False of the code: sub-batch ids registered before the conflict was found stay registered. It holds for blocks without sub-batches.]", "quantifier": "all arguments and states", "why_tests_cant": "All inputs.", "anchors": ["delivery/producer.go: Producer.AddBlock"]}
{"id": "C24", "title": "Overlapping schema prefixes are rejected", "statement": "NewProducer fails whenever two different schema prefixes exist of which one is a prefix of the other, in every map iteration order; when no such pair exists and all patterns compile it succeeds and routes each pattern anchored at the start.", "quantifier": "all schemas and map iteration orders", "why_tests_cant": "All schemas.", "anchors": ["delivery/producer.go: NewProducer"]}
{"id": "C25", "title": "Message keys are unambiguous", "statement": "Two messages produced for the same or different blocks have the same key only if they are of the same type, block and key path (or sub-batch id and index): the receiver recovers type, block hash, path, batch id and index from the key.", "quantifier": "all types, hashes, paths, ids and 32-bit indices", "why_tests_cant": "Injectivity over an infinite domain.", "anchors": ["delivery/types.go: MessageType.GetKey, AvroInt", "delivery/consumer.go: PendingBatch.ApplyMessage key slicing"]}
{"id": "C26", "title": "Wire encoding round trips", "statement": "Decoding the Avro encoding of any batch header, sub-batch record or 32-bit integer gives back the same value, for every number of map entries (also beyond one Avro block).", "quantifier": "all batches, records and integers in range", "why_tests_cant": "Infinite domain.", "anchors": ["delivery/types.go: Batch.EncodeAvro, SubBatchRecord.EncodeAvro, AvroInt, UnmarshalBatch, batchSchema, updateSchema, intSchema"]}
{"id": "C27", "title": "Reorg announcements carry the block number", "statement": "The number decoded from a Reorg message equals the number given to Producer.Reorg. [False for numbers outside the signed 32-bit range; holds inside it.]", "quantifier": "all block numbers", "why_tests_cant": "Boundary beyond any tested number.", "anchors": ["delivery/producer.go: Producer.Reorg, ReorgDone", "delivery/types.go: AvroInt"]}
{"id": "C28", "title": "Chain updates form one continuous chain", "statement": "Replaying the ChainUpdates in order is always possible: the removed blocks are exactly the tip of the current chain, and the added blocks link parent by parent onto what remains. (Consumer started with a LastHash; after a Reorg notification the chain restarts at the announced hash.)", "quantifier": "all histories of delivered blocks and reorg notifications, any order and duplication, any weights, all map iteration orders", "why_tests_cant": "Unbounded histories of forks and evictions.", "anchors": ["delivery/ordering.go: HandlePendingBatch, prepareEmit, prepareReorg"]}
{"id": "C29", "title": "A reorg names the exact fork: common ancestor, undone and new blocks", "statement": "When a ChainUpdate removes blocks, the last removed block is the current head, removed blocks are parent-linked in ascending order, the parent of the first removed block equals the parent of the first added block, and no block is both removed and added (when block numbers increase by one along parent links and blocks are heavier than their parents).", "quantifier": "all histories", "why_tests_cant": "Unbounded fork depths.", "anchors": ["delivery/ordering.go: prepareReorg"]}
{"id": "C30", "title": "The head only ever gets heavier", "statement": "If every block is heavier than its parent, then each ChainUpdate's new head is strictly heavier than the previous head (a fork that is not strictly heavier is never adopted).", "quantifier": "all histories of delivered blocks", "why_tests_cant": "Unbounded histories.", "anchors": ["delivery/ordering.go: HandlePendingBatch, prepareEmit, getPendingChild"]}
{"id": "C31", "title": "A chain update runs to the heaviest waiting descendant", "statement": "When an update is emitted, its added blocks continue, from the first block that triggered it, along queued blocks to the end of a chain whose last block is at least as heavy as the end of every other queued chain descending from the triggering block, and nothing further is waiting on the new head (when handling the block evicts nothing).", "quantifier": "all histories", "why_tests_cant": "Unbounded trees.", "anchors": ["delivery/ordering.go: prepareEmit, getPendingChild, getPendingChainDifficulty"]}
{"id": "C32", "title": "No block is applied twice", "statement": "If block numbers increase by one along parent links, a block is never added while it is still part of the emitted chain.", "quantifier": "all histories with duplicates and reorgs", "why_tests_cant": "Unbounded histories.", "anchors": ["delivery/ordering.go: HandlePendingBatch"]}
{"id": "C33", "title": "Whitelisted heights are respected", "statement": "No ChainUpdate ever adds a block whose number has a whitelist entry with a different hash.", "quantifier": "all histories and whitelists", "why_tests_cant": "Unbounded histories.", "anchors": ["delivery/ordering.go: HandlePendingBatch lines 165-169"]}
{"id": "C34", "title": "Descendants of excluded blocks are never applied", "statement": "A block that arrives after its parent was excluded by the whitelist (directly or through its own ancestors) is never added to the chain, nor are its later descendants.", "quantifier": "all histories and whitelists", "why_tests_cant": "Unbounded histories.", "anchors": ["delivery/ordering.go: HandlePendingBatch lines 170-176"]}
{"id": "C35", "title": "The ordering layer never panics", "statement": "Handling delivered blocks never panics. [False of the code: a waiting child of weight zero makes the emit loop panic, and so do blocks left waiting by an eviction. Holds when every block is heavier than its parent and all fit the window, so that nothing is evicted.]", "quantifier": "all histories of delivered blocks", "why_tests_cant": "Needs a specific arrival order.", "anchors": ["delivery/ordering.go: prepareEmit lines 255-259, getPendingChild"]}
{"id": "C36", "title": "Ordering terminates", "statement": "Handling a block terminates whenever block numbers increase by one along parent links, for any queue contents.", "quantifier": "all histories", "why_tests_cant": "Termination.", "anchors": ["delivery/ordering.go: evict, finishPendingChildren, getPendingChainDifficulty, HandlePendingBatch, prepareReorg"]}
{"id": "C37", "title": "Parents-first delivery always ends on the heaviest block", "statement": "If blocks arrive parents first starting with the last processed block, are heavier than their parents, and every new block branches off the heaviest branch at a block that is still recent (at most 2 * ReorgThreshold different blocks are numbered as high as what was delivered since it), then for any number of blocks nothing faults and after every delivery the emitted head is the first-received block of maximal weight.", "quantifier": "all block trees of any size and all parents-first orders", "why_tests_cant": "All trees, without end.", "anchors": ["delivery/ordering.go: HandlePendingBatch, prepareReorg"]}
{"id": "C38", "title": "A single chain is delivered completely and in order", "statement": "If the blocks of one chain extending the last processed block are delivered in any order and with any duplication, then the concatenation of added blocks is a gap-free prefix of the chain, each block once and nothing removed, and once all blocks have been delivered it is the whole chain.", "quantifier": "all chain lengths, all delivery orders, omissions and duplications", "why_tests_cant": "n! orders.", "anchors": ["delivery/ordering.go: HandlePendingBatch, prepareEmit, queue"]}
{"id": "C39", "title": "Any-order delivery of forks ends on the heaviest block", "statement": "If all blocks of a tree rooted in the last processed block are delivered in some order, the final head is a heaviest block. [False of the code: siblings that were queued before their parent are not marked as connected after a reorg, and their descendants stay queued. It holds, after every delivery and for the blocks connected so far, when each block that closes a gap either is the heaviest connected block at that moment or has no fork among the blocks waiting above it.]", "quantifier": "all trees and delivery orders", "why_tests_cant": "Specific order of nine blocks.", "anchors": ["delivery/ordering.go: HandlePendingBatch, finishSiblings"]}
{"id": "C40", "title": "Redelivered blocks change nothing", "statement": "Handling a block whose hash is remembered as handled emits nothing and changes neither head, queue nor remembered hashes. A handled block that came next after the head, or is lighter than it, is remembered, unless its eviction was requested meanwhile or it was too old to be held.", "quantifier": "all states", "why_tests_cant": "All states.", "anchors": ["delivery/ordering.go: HandlePendingBatch line 178"]}
{"id": "C41", "title": "Remembered hashes are bounded", "statement": "The number of remembered handled blocks never exceeds 2*ReorgThreshold and the remembered emitted hashes of the assembler never exceed 2*ReorgThreshold.", "quantifier": "all histories", "why_tests_cant": "Unbounded histories.", "anchors": ["delivery/ordering.go: finished", "delivery/consumer.go: completed"]}
{"id": "C42", "title": "Forks from the last processed block are adopted", "statement": "After starting from LastHash, a strictly heavier fork branching off at LastHash is adopted once all its blocks are delivered. [False of the code unless the LastHash block itself is redelivered: the common ancestor is not found and the heavier block is forgotten.]", "quantifier": "all histories", "why_tests_cant": "Depends on whether the start block is replayed.", "anchors": ["delivery/ordering.go: prepareReorg lines 353-357, HandlePendingBatch lines 197-201"]}
{"id": "C43", "title": "The pipeline neither loses, duplicates nor reorders assembled blocks", "statement": "The sequence of blocks handled by the ordering layer is at any time a prefix of the sequence of blocks emitted by the message processor, for every scheduling of the two goroutines and the buffered channels; likewise for reorg notifications; and every block in a ChainUpdate was emitted by the message processor.", "quantifier": "all schedules of the two goroutines and channel capacities", "why_tests_cant": "All schedules.", "anchors": ["delivery/ordering.go: NewOrderedMessageProcessor goroutine", "delivery/consumer.go: mp.feed, mp.reorgFeed"]}
{"id": "C44", "title": "End to end: producer to ordered consumer", "statement": "If a producer sends the blocks of a chain (with sub-batches) and all messages are delivered to an OrderedMessageProcessor in any order with any duplication, then under every goroutine schedule that drains the queue the subscriber sees each block exactly once, in chain order, with exactly the values and deletes sent, and nothing removed.", "quantifier": "all chains of any length, all payloads, delivery orders, duplications and schedules", "why_tests_cant": "All schedules and orders.", "anchors": ["delivery/producer.go: AddBlock, SendBatch", "delivery/consumer.go: ProcessMessage", "delivery/ordering.go: HandlePendingBatch"]}
{"id": "C45", "title": "Blocks seen from another producer are not rebroadcast", "statement": "If a block's header was observed on the topic among the last 4096 distinct observed hashes (and the replay cache was not purged), KafkaProducer.AddBlock sends nothing and returns nil, and SendBatch for its sub-batches sends nothing and returns nil while among the 1024 latest skipped ids; otherwise every message is sent. After PurgeReplayCache nothing is skipped.", "quantifier": "all histories of observations, AddBlock, SendBatch and purges", "why_tests_cant": "LRU contents over unbounded histories.", "anchors": ["transports/kafka.go: KafkaProducer.AddBlock, SendBatch, PurgeReplayCache"]}
{"id": "C46", "title": "A nil error from the Kafka producer means everything was handed over", "statement": "If KafkaProducer.AddBlock or SendBatch returns nil and does not skip, every message of the bundle has been put on the producer input exactly once in its topic's order; if it returns an error, what was handed over is a prefix in iteration order.", "quantifier": "all bundles, error schedules and map iteration orders", "why_tests_cant": "All schedules.", "anchors": ["transports/kafka.go: emitBundle, emit"]}
{"id": "C47", "title": "Kafka start offsets never skip past the resumption point", "statement": "For each partition the consumer starts at resumption offset minus rollback when that is non-negative; otherwise at the oldest offset, except that with an empty start hash and non-negative rollback it starts one before the newest; in particular a consumer with a start hash and a non-negative rollback never starts after its resumption offset.", "quantifier": "all resumption maps, rollbacks, hashes and broker replies", "why_tests_cant": "All combinations.", "anchors": ["transports/kafka.go: KafkaConsumer.Start lines 553-579"]}
{"id": "C48", "title": "The muxing producer reaches every transport", "statement": "muxProducer.AddBlock/SendBatch call every transport exactly once in order regardless of failures, return nil iff all succeeded and otherwise the first error.", "quantifier": "all lists of producers and outcomes", "why_tests_cant": "Any number of transports.", "anchors": ["transports/resolver.go: muxProducer.AddBlock, SendBatch"]}
{"id": "C49", "title": "LatestBlockFromFeed of a mux is the slowest transport", "statement": "muxProducer.LatestBlockFromFeed returns the minimum over the transports that answered; an error only if none answered; with no transports it returns 0 and no error.", "quantifier": "all lists of answers", "why_tests_cant": "All lists.", "anchors": ["transports/resolver.go: muxProducer.LatestBlockFromFeed"]}
{"id": "C50", "title": "Mux consumer start fails only if all transports fail", "statement": "muxConsumer.Start starts every consumer and returns an error iff every consumer failed (vacuously for none); ProducerCount is the sum.", "quantifier": "all lists of outcomes", "why_tests_cant": "All lists.", "anchors": ["transports/resolver.go: muxConsumer.Start, ProducerCount"]}
{"id": "C51", "title": "Websocket assembly is order independent and exact", "statement": "If a block (with distinct sub-batch ids, and no key given different values by two parts) and its sub-batches are each received exactly once over one websocket connection, in any order and interleaved with other blocks, the block is processed exactly once, when the last part arrives, with exactly the union of values and deletes.", "quantifier": "all blocks, sub-batches and receive orders", "why_tests_cant": "All interleavings.", "anchors": ["transports/websockets.go: websocketConsumer.Start lines 401-466"]}
{"id": "C52", "title": "Websocket duplicates are harmless", "statement": "Receiving a batch message twice on a connection does not lose data or stall the block. [False of the code: a duplicate batch discards sub-batches already merged and waits for them forever.]", "quantifier": "all receive sequences", "why_tests_cant": "Specific orders.", "anchors": ["transports/websockets.go: websocketConsumer.Start lines 409-444"]}
{"id": "C53", "title": "A websocket reconnect loses no block", "statement": "After reconnecting from the recorded position every block not yet processed is requested again. [False of the code: the recorded position is that of the last completed block, even when an earlier block still waits for a sub-batch.]", "quantifier": "all receive sequences and disconnect points", "why_tests_cant": "Crash points.", "anchors": ["transports/websockets.go: websocketConsumer.Start lines 439-444, 459-465"]}
{"id": "C54", "title": "Websocket transport preserves blocks", "statement": "What a websocket consumer reconstructs from a message of AddBlock, StreamsBlock or the initial stream has the number, weight, hashes, values and deletes of the original block. [False of the code for keys that are not UTF-8: JSON replaces the bytes.]", "quantifier": "all blocks", "why_tests_cant": "Infinite domain.", "anchors": ["transports/websockets.go: websocketProducer.AddBlock, StreamsBlock, ToPendingBatch"]}
{"id": "C55", "title": "A waiter reports success only for processed blocks", "statement": "WaitForHashResult(h) returns Success only if Done was called on a block announced with hash h, WaitForNumberResult(n) only if Done was called on a block announced with number n; NotFound only if no such block was announced or its entry expired.", "quantifier": "all schedules of announcements, Done calls, expiries and waits", "why_tests_cant": "All schedules.", "anchors": ["waiter/waiter.go: NewOmpWaiter, WaitForHashResult, WaitForNumberResult"]}
{"id": "C56", "title": "Channels are closed at most once", "statement": "Under every schedule no wait channel is closed twice: not by repeated or overlapping ChainUpdate.Done/PendingBatch.Done calls, and not the per-number channel when several blocks of one height complete.", "quantifier": "all schedules of Done calls and waiter goroutines (Done calls on one block not concurrent)", "why_tests_cant": "All schedules.", "anchors": ["delivery/consumer.go: PendingBatch.Done", "delivery/ordering.go: ChainUpdate.Done", "waiter/waiter.go: NewOmpWaiter lines 69-99"]}
{"id": "C57", "title": "Completed blocks wake their waiters", "statement": "Once Done has been called on the block last announced for hash h and the entry has not expired, WaitForHashResult(h) returns Success (for positive timeouts); likewise every number channel of an announced block that was completed gets closed once the watching goroutine has run.", "quantifier": "all schedules", "why_tests_cant": "All schedules.", "anchors": ["waiter/waiter.go: NewOmpWaiter"]}
{"id": "C58", "title": "Producer count is the number of distinct live producers", "statement": "ProducerCount(d) equals the number of distinct producer ids whose latest heartbeat is younger than d.", "quantifier": "all heartbeat histories", "why_tests_cant": "All histories.", "anchors": ["transports/kafka.go: pingTracker.update, pingTracker.ProducerCount"]}
{"id": "C59", "title": "Resumption for a time parses back", "statement": "The string of kafkaResumptionForTimestamp, given to a Kafka consumer, yields for every partition of every topic exactly the offset the broker named for the time, and nothing else.", "quantifier": "all topics without ';' and '=', partition lists and broker answers", "why_tests_cant": "Infinite domain.", "anchors": ["transports/kafka.go: kafkaResumptionForTimestamp, kafkaConsumerWithOMP lines 477-484"]}
{"id": "C60", "title": "Source names are unambiguous", "statement": "Different (topic, partition) pairs have different source names, whatever characters the topics contain.", "quantifier": "all topics and partitions", "why_tests_cant": "Infinite domain.", "anchors": ["transports/kafka.go: KafkaResumptionMessage.Source, Start line 553"]}
{"id": "C61", "title": "The dispatcher passes every data message on", "statement": "The dispatcher of a Kafka consumer hands every message other than heartbeats, pings and reorg markers to ProcessMessage once, in order, and does not panic. [False of the code for a ReorgComplete message on an ordinary topic.]", "quantifier": "all message sequences", "why_tests_cant": "All sequences.", "anchors": ["transports/kafka.go: KafkaConsumer.Start lines 657-695"]}
{"id": "C62", "title": "LatestBlockFromFeed of Kafka is the highest header read", "statement": "The number found is at least that of every decodable header among the messages read and is that of one of them, or zero if there is none.", "quantifier": "all partitions and messages", "why_tests_cant": "Infinite domain.", "anchors": ["transports/kafka.go: KafkaProducer.LatestBlockFromFeed lines 405-452"]}
{"id": "C63", "title": "Foreign messages do not stop a producer", "statement": "The watcher of a Kafka producer tolerates every key found on the topic; it learns exactly the hashes of headers and the ids of other producers' pings. [False of the code: a header key of fewer than 33 bytes panics.]", "quantifier": "all keys and ids", "why_tests_cant": "Infinite domain.", "anchors": ["transports/kafka.go: NewKafkaProducer lines 286-297"]}
{"id": "C64", "title": "A muxed reorg is announced to and ended on every transport", "statement": "muxProducer.Reorg announces the reorg to every transport once in order; the function it returns ends it, in order, on exactly those that accepted; the error is the first error.", "quantifier": "all lists of producers and outcomes", "why_tests_cant": "All outcome combinations.", "anchors": ["transports/resolver.go: muxProducer.Reorg"]}
{"id": "C65", "title": "Resumption for a time works with several brokers", "statement": "The string of ResumptionForTimestamp for several brokers yields, for every partition of every Kafka broker, the offset that broker named. [False of the code when two brokers have a topic of the same name: source names do not contain the broker.]", "quantifier": "all broker lists, topics, partitions and answers", "why_tests_cant": "Infinite domain.", "anchors": ["transports/resolver.go: ResumptionForTimestamp"]}
{"id": "C66", "title": "Producers and consumers of one URL use the same brokers", "statement": "For a Kafka URL the consumer connects to the brokers the producer connects to, and these are exactly the comma-separated hosts of the URL. [False of the code for URLs with the prefix cardinal://.]", "quantifier": "all URLs", "why_tests_cant": "Infinite domain.", "anchors": ["transports/resolver.go: resolveConsumer, ResolveProducerWithResumer", "transports/kafka.go: ParseKafkaURL"]}
{"id": "C67", "title": "Partition goroutines forward everything in order", "statement": "Under every schedule each partition's messages are forwarded in order without loss, and the goroutines only stop when everything was forwarded. [False of the code when a partition is empty: the others wait for it.]", "quantifier": "all schedules, partitions, start offsets and messages", "why_tests_cant": "All schedules.", "anchors": ["transports/kafka.go: KafkaConsumer.Start lines 581-617"]}
{"id": "C68", "title": "Waiters find blocks that are announced and not done", "statement": "WaitForHashResult finds every block whose announcement was received and on which Done was not yet called. [False of the code: 60 s after a block of the same number is done, or an earlier announcement of the same hash is, the entry is deleted.]", "quantifier": "all schedules", "why_tests_cant": "All schedules.", "anchors": ["waiter/waiter.go: NewOmpWaiter lines 81-97"]}
{"id": "C69", "title": "A websocket subscriber misses no block", "statement": "From the requested position on, every block stored or added is sent to the subscriber, in order and once. [False of the code: a block added after the stored blocks were read and before feed.Subscribe is never sent.]", "quantifier": "all schedules of additions and of the subscription", "why_tests_cant": "All schedules.", "anchors": ["transports/websockets.go: websocketStreamsService.Streams lines 235-276"]}
{"id": "C70", "title": "Frames without content have no effect", "statement": "Empty frames, notifications of other subscriptions and frames that cannot be parsed do not change what the websocket consumer hands on. [False of the code for frames that cannot be parsed: the previous message is processed again.]", "quantifier": "all frame sequences", "why_tests_cant": "Infinite domain.", "anchors": ["transports/websockets.go: websocketConsumer.Start lines 373, 388-400"]}
{"id": "C71", "title": "The websocket producer accepts exactly the announced sub-batches", "statement": "After any calls, SendBatch succeeds exactly if the last call concerning the id was an AddBlock announcing it; the message then names that block; otherwise the error is ErrUnknownBatch and nothing is sent.", "quantifier": "all call sequences", "why_tests_cant": "All call sequences.", "anchors": ["transports/websockets.go: websocketProducer.AddBlock, SendBatch"]}
{"id": "C72", "title": "Repeated sub-batch ids are assembled in any order", "statement": "A block that names one sub-batch id under two prefixes is handed on once its parts have arrived, in whatever order. [False of the code: if the sub-batch comes first the block waits forever.]", "quantifier": "all orders", "why_tests_cant": "Specific orders.", "anchors": ["transports/websockets.go: websocketConsumer.Start lines 425-438"]}
{"id": "C73", "title": "When NewKafkaProducer returns, the recent headers are known", "statement": "When NewKafkaProducer has returned, every header among the messages of the default topic that its watchers read on startup is in the replay cache, so that AddBlock of such a block sends nothing.", "quantifier": "all numbers of partitions, all contents, all schedules of the watcher goroutines and the receiving goroutine", "why_tests_cant": "A race: readyWg.Done is called before the hash is handed over, and the receiver adds it to the cache later still.", "anchors": ["transports/kafka.go: NewKafkaProducer lines 255-323"]}
{"id": "C74", "title": "NewKafkaProducer returns", "statement": "NewKafkaProducer does not wait for ever: whatever the partitions of the default topic contain, its watchers all report that they are ready.", "quantifier": "all numbers of partitions, all contents and retention states, all schedules", "why_tests_cant": "Depends on the retention state of a broker and on schedules.", "anchors": ["transports/kafka.go: NewKafkaProducer lines 255-323"]}
{"id": "C75", "title": "The reorg topic is read completely", "statement": "A consumer that reads a Reorg message on its main topic passes every data message of the reorg topic, and the Reorg message that opens it, to the message processor, and the dispatcher survives.", "quantifier": "all contents of the reorg topic and all times at which the consumer arrives", "why_tests_cant": "Depends on when the consumer arrives relative to the producer.", "anchors": ["transports/kafka.go: KafkaConsumer.Start lines 547-579, 667-694"]}
{"id": "C76", "title": "Reorg notifications and blocks reach the ordering layer in order", "statement": "The ordering layer handles completed blocks and Reorg notifications in the order in which the message processor announced them.", "quantifier": "all message sequences, all schedules of the two goroutines", "why_tests_cant": "Two channels and a select: only some schedules exchange the order.", "anchors": ["delivery/ordering.go: NewOrderedMessageProcessor lines 62-82", "delivery/consumer.go: ProcessMessage"]}
{"id": "C77", "title": "LatestBlockFromFeed finds the highest block of the feed", "statement": "LatestBlockFromFeed returns the number of the highest block whose header is in the default topic.", "quantifier": "all numbers of partitions, contents and retention states", "why_tests_cant": "The scan starts 100 messages before the end of each partition; only long feeds show it.", "anchors": ["transports/kafka.go: KafkaProducer.LatestBlockFromFeed"]}
{"id": "C78", "title": "Restarting after a block loses no later block", "statement": "If a consumer emitted block B and later block D, every message of D follows every message of B in each source, and a new consumer is fed from each source all messages at or after the offset in B's Resumption() (less the rollback), then the new consumer emits D.", "quantifier": "all logs, all interleavings of the sources before and after the restart, all rollbacks", "why_tests_cant": "Quantifies over crash points and over the skew between partitions.", "anchors": ["delivery/consumer.go: PendingBatch.Resumption, resumptionCopy, ProcessMessage lines 294, 335", "transports/kafka.go: KafkaConsumer.Start lines 553-573"]}
{"id": "C79", "title": "Two producers of one topic together lose no block", "statement": "If two Kafka producers are both given a block (AddBlock and SendBatch for its sub-batches) and all calls of at least one of them return nil, then every message of the block has been handed over to Kafka by one of them.", "quantifier": "all blocks, all interleavings of calls, errors and observed headers", "why_tests_cant": "Needs a failure of one producer between the messages of one block.", "anchors": ["transports/kafka.go: KafkaProducer.AddBlock, SendBatch, emitBundle"]}
{"id": "C80", "title": "Waiting blocks are bounded", "statement": "The number of blocks the ordering layer keeps waiting is bounded by a function of the configuration, whatever blocks arrive.", "quantifier": "all sequences of blocks", "why_tests_cant": "A leak shows only in long runs.", "anchors": ["delivery/ordering.go: OrderedMessageProcessor.HandlePendingBatch, evict"]}
{"id": "C81", "title": "Quiet sources are resumed at their latest message", "statement": "Resumption() of an emitted block restarts every source that carried none of the block's messages at the greatest offset received from it when the block's header arrived (neither an older nor a newer one), and leaves out sources not heard of by then.", "quantifier": "all message sequences, sources and offsets in any order, all eviction requests", "why_tests_cant": "Needs the maximum over everything received before one message of a long run.", "anchors": ["delivery/consumer.go: MessageProcessor.updateResumption, resumptionCopy, PendingBatch.Resumption"]}
{"id": "C82", "title": "A block handed over complete is not assembled again", "statement": "ProcessCompleteBatch sends the block, and it alone, as given; afterwards messages of that block do not make ProcessMessage send it again, until a Reorg message comes or 2*ReorgThreshold other blocks were sent; blocks handed over in between do not disturb the assembly of others, and the memory of sent blocks stays within 2*ReorgThreshold.", "quantifier": "All reachable states, all sequences of ProcessMessage and ProcessCompleteBatch calls, all messages.", "why_tests_cant": "Mixes two entry points over histories longer than the cache.", "anchors": ["delivery/consumer.go: MessageProcessor.ProcessCompleteBatch, ProcessMessage"]}
{"id": "C83", "title": "Handled blocks are held unless too old", "statement": "Handling a block that is not excluded leaves it held for later forks, unless an eviction with its number was requested meanwhile or it is too old: its parent is not remembered, it is lighter than the head, and the head is known and more than ReorgThreshold above it. A block that is too old and was not handled before is forgotten without any other change.", "quantifier": "All reachable states, all blocks, all iteration orders.", "why_tests_cant": "Depends on the whole state: remembered hashes, head and thresholds.", "anchors": ["delivery/ordering.go: HandlePendingBatch lines 178, 220-232, evict"]}
{"id": "C84", "title": "Blocks after a reorg notification are sent from the announced block", "statement": "After a reorg notification naming a block, a chain of blocks delivered on top of it is sent to subscribers one by one, so that they stand at its end.", "quantifier": "All reachable states, all announced blocks and all chains of any length, any weights, all iteration orders.", "why_tests_cant": "Depends on which blocks of the chain were handled before the notification.", "anchors": ["delivery/ordering.go: HandleReorg lines 241-244, HandlePendingBatch lines 178-218"]}
{"id": "C85", "title": "The answer of the ordering layer is that of the block", "statement": "WhyNotReady of the ordering layer answers done exactly for blocks that were sent to subscribers (or the last one processed before), pending parent for blocks that are held and were not sent, and otherwise what the message processor answers.", "quantifier": "All reachable states, all hashes, all iteration orders.", "why_tests_cant": "Needs reorgs whose inner blocks arrived before their parents.", "anchors": ["delivery/ordering.go: WhyNotReady lines 374-378, prepareEmit, HandlePendingBatch"]}
{"id": "C86", "title": "End to end with forks: subscribers end at the heaviest block", "statement": "The messages of a tree of blocks on the last processed block, which is delivered again, are received in any order and any number of times, only no header before all messages of its parent. Then no goroutine faults; at every moment the head of the subscribers is the first-handled block of maximal weight; and in the end they hold, having applied all updates, a chain of blocks exactly as produced that ends in a heaviest block of the tree.", "quantifier": "All trees of at most 2*ReorgThreshold blocks (for the head: of any size, if each emitted block branches off at a recent one), all message orders and schedules of the two goroutines, all codecs meeting the law, eviction requests acted on at any time after they were sent.", "why_tests_cant": "Needs all interleavings of messages and goroutines over trees of blocks.", "anchors": ["delivery/consumer.go: ProcessMessage", "delivery/ordering.go: NewOrderedMessageProcessor, HandlePendingBatch"]}
{"id": "C87", "title": "From a Kafka producer to the subscribers of a Kafka consumer", "statement": "A producer is given a chain of blocks with their sub-batches, every call returning nil; its messages are spread over the partitions of the consumer in any way, any number of times, between heartbeats and pings. Then no goroutine of the consumer faults or waits for ever, and when it has come to rest the subscribers have seen each block exactly once, in order, with exactly the keys and values the filter lets through, and every ping was counted.", "quantifier": "All chains of any length, all schemas, all numbers of partitions and distributions over them (each with a message at or after its start offset), all schedules of partition goroutines, dispatcher, message processor and ordering layer, all channel fill levels.", "why_tests_cant": "Needs all interleavings of five kinds of goroutines over bounded channels, and a broker.", "anchors": ["transports/kafka.go: KafkaProducer.AddBlock, SendBatch, emit, KafkaConsumer.Start", "delivery/consumer.go: ProcessMessage", "delivery/ordering.go: HandlePendingBatch"]}
{"id": "C88", "title": "From a websocket producer to the subscribers of a websocket consumer", "statement": "A websocket producer is given a chain of blocks, each once, and their sub-batches, the calls interleaved in any way. The consumer reads the messages over one or more connections; a block may come as it was given to the producer or as a stored block, in pieces on a connection that breaks, and completely on another. Then neither goroutine of the consumer faults or waits for ever, and when it has come to rest the subscribers have seen each block exactly once, in order, with exactly its keys, values and deletes, and nothing removed.", "quantifier": "All chains of any length with UTF-8 keys, all orders of calls and messages in which a connection carries a batch message once, all numbers of connections, all map orders, all schedules of the two goroutines.", "why_tests_cant": "Needs all interleavings of messages, connections and goroutines.", "anchors": ["transports/websockets.go: AddBlock, SendBatch, websocketConsumer.Start", "delivery/consumer.go: ProcessCompleteBatch", "delivery/ordering.go: HandlePendingBatch"]}
{"id": "C89", "title": "A websocket consumer with forks: subscribers end at the heaviest block", "statement": "The blocks of a tree on the last processed block, which is sent again, come over one or more websocket connections, interleaved, in pieces or as stored blocks. Neither goroutine of the consumer faults or waits for ever. If no batch message comes before its parent is complete, then at every moment the head is the first-handled block of maximal weight, and when the consumer has come to rest its subscribers, having applied all updates, hold a chain with exactly the contents given to the producer that ends in a heaviest block of the tree. The condition holds when the producer is given each block after its parent and all sub-batches of the parent.", "quantifier": "All trees that fit twice the reorg threshold (for the head also larger ones, if new branches leave the head's at a recent block), all orders, connections, map orders and schedules of the two goroutines.", "why_tests_cant": "Needs all trees and all interleavings of messages, connections and goroutines.", "anchors": ["transports/websockets.go: AddBlock, SendBatch, websocketConsumer.Start", "delivery/ordering.go: HandlePendingBatch, prepareReorg, prepareEmit"]}
{"id": "C90", "title": "Ready means that everything present at the start has been handled", "statement": "When a goroutine that waits for Ready of a Kafka consumer is released, every message that was in the partitions when the consumer started (below the high water mark at that time) has been handled by the dispatcher, unless the consumer was closed.", "quantifier": "All numbers of partitions, all messages with increasing offsets, all answers of the broker library about the high water mark that do not fall below the first, all schedules of partition goroutines, announcing goroutine, dispatcher and program.", "why_tests_cant": "Needs all schedules of the goroutines, including one in which the idle second passes while a message is in hand.", "anchors": ["transports/kafka.go: KafkaConsumer.Start lines 581-646, 705-716", "transports/kafka.go: Ready"]}
{"id": "C91", "title": "Everybody who waits for Ready is released", "statement": "A Kafka consumer that nobody closes releases every goroutine that waits on the channel returned by Ready.", "quantifier": "All numbers of partitions and messages, all numbers of waiting goroutines, all schedules.", "why_tests_cant": "A liveness claim about all schedules; needs several waiting goroutines or an empty partition.", "anchors": ["transports/kafka.go: KafkaConsumer.Start lines 581-646", "transports/kafka.go: Ready"]}
{"id": "C92", "title": "Close returns and nothing received is lost", "statement": "Close of a Kafka consumer returns; the partition goroutines and the dispatcher end; every message that a partition goroutine put on the channel has been handled, in the order of its partition and once; nothing is sent to or closes a closed channel.", "quantifier": "All numbers of partitions and messages, all moments of Close, all schedules, whatever the broker library still delivers after its partition consumers were closed.", "why_tests_cant": "Needs all moments of Close against all schedules of the goroutines.", "anchors": ["transports/kafka.go: KafkaConsumer.Start lines 581-615, 717-724", "transports/kafka.go: Close"]}
{"id": "C93", "title": "Reorgs have topics of their own", "statement": "The message that announces a reorg makes a consumer of the main topic read the topic whose name is the default topic, -re- and the hash in lower case hexadecimal, as the producer names it; different hashes give different topics.", "quantifier": "All topics, all hashes of any length.", "why_tests_cant": "Needs all hashes.", "anchors": ["transports/kafka.go: KafkaConsumer.Start lines 666-680, Reorg line 377 (comment)"]}
{"id": "C94", "title": "A muxed consumer answers for the ordering layer", "statement": "WhyNotReady of a consumer of several transports is the answer of the ordering layer that all its consumers share.", "quantifier": "All lists of consumers, all answers.", "why_tests_cant": "Needs several transports at once, in every order.", "anchors": ["transports/resolver.go: muxConsumer.WhyNotReady", "transports/websockets.go: WhyNotReady", "transports/null.go: WhyNotReady"]}
{"id": "C95", "title": "A muxed consumer has all its transports", "statement": "A consumer of several transports is made exactly when every URL names a known protocol, with one consumer for each URL in order; Close reaches each once; its waiter is that of the first consumer that is not a null consumer, the same at every call, and finds nothing only if all are null consumers.", "quantifier": "All lists of URLs and consumers.", "why_tests_cant": "Needs several transports at once.", "anchors": ["transports/resolver.go: ResolveMuxConsumer, muxConsumer.Waiter, Close", "transports/null.go"]}
{"id": "C96", "title": "A websocket reorg reaches the subscribers", "statement": "A reorg given to a websocket producer becomes one message, from which a consumer gets the same number and hash. Under any schedule the subscribers of a websocket consumer have been notified of exactly the reorgs it has read so far, in that order, each once; and the blocks the ordering layer has handled are the first of those handed on, in order, each once.", "quantifier": "All numbers of the range of int64, all hashes, all messages over any number of connections, all schedules of the goroutines of the consumer.", "why_tests_cant": "Needs all interleavings of messages, connections and goroutines.", "anchors": ["transports/websockets.go: Reorg lines 180-191, websocketConsumer.Start lines 407-408", "delivery/ordering.go: HandleReorg"]}
{"id": "C97", "title": "A websocket reorg keeps its place among the blocks", "statement": "The ordering layer of a websocket consumer handles blocks and reorgs in the order in which the consumer read them, so subscribers end where these events lead in that order.", "quantifier": "All messages over any number of connections, all schedules of the goroutines of the consumer.", "why_tests_cant": "Needs a block that waits in the channel while the reorg behind it is read.", "anchors": ["transports/websockets.go: websocketConsumer.Start lines 400-430", "delivery/ordering.go: NewOrderedMessageProcessor lines 62-100, HandleReorg"]}
{"id": "C98", "title": "A websocket server does not panic", "statement": "Whatever clients, producer and scheduler do, nothing is sent to a closed channel and no channel is closed twice; a channel is closed only while the producer is not sending; at most 1000 messages wait in the channel of a client, and of the stored blocks at most eleven unless it has left.", "quantifier": "All numbers of clients, stored blocks and messages, all moments at which clients leave, all schedules of the goroutines of the subscriptions, the library and the producer.", "why_tests_cant": "Needs all interleavings of four kinds of goroutines, a feed, bounded channels and a lock.", "anchors": ["transports/websockets.go: Streams lines 225-296, AddBlock, SendBatch, Reorg lines 131-191"]}
{"id": "C99", "title": "What a websocket client is sent", "statement": "A client is sent the stored blocks, in order and once each; from the moment of feed.Subscribe it is sent, in order and once each, the messages whose feed.Send begins after that moment, as long as it has not left, with one message ready among them; while it is subscribed at most the message being sent is missing.", "quantifier": "All numbers of clients, all stored blocks and messages, all schedules.", "why_tests_cant": "Needs all interleavings of the goroutines of several subscriptions with the producer.", "anchors": ["transports/websockets.go: Streams lines 225-296, AddBlock, SendBatch, Reorg lines 131-191"]}
{"id": "C100", "title": "A websocket client that leaves leaves nothing behind", "statement": "When clients leave, both goroutines of their subscriptions end and their channels are closed, the calls of the producer return, and the clients that stay are sent everything.", "quantifier": "All numbers of clients, stored blocks and messages, all moments at which clients leave, all schedules.", "why_tests_cant": "A liveness claim about all schedules; needs a client that leaves with a full channel.", "anchors": ["transports/websockets.go: Streams lines 225-296, AddBlock, SendBatch, Reorg lines 131-191"]}
{"id": "C101", "title": "The early phase of a consumer without a last block ends", "statement": "A consumer that starts without a last block sends the blocks it gets at once, so that a chain arriving in order on top of an unknown block is sent whole; it sends at most nine updates that connect to nothing, and a consumer that starts with a last block sends none.", "quantifier": "All configurations, all histories of blocks and reorg notifications, all map iteration orders.", "why_tests_cant": "Needs the number of remembered hashes over whole histories; the tests start from known blocks.", "anchors": ["delivery/ordering.go: NewOrderedMessageProcessor line 55, HandlePendingBatch lines 184-192"]}
{"id": "C102", "title": "Start of a websocket consumer returns when the subscription is established", "statement": "Start returns after the server has granted the subscription and not before; if the server refuses, or the connection breaks before the answer, the consumer tries again.", "quantifier": "All sequences of connections, failures and messages, all moments of Close, all schedules.", "why_tests_cant": "Needs all interleavings of the reading goroutine with failures of the network; the tests connect once to a server that grants.", "anchors": ["transports/websockets.go: websocketConsumer.Start lines 321-385, 470-471"]}
{"id": "C103", "title": "A websocket consumer becomes ready once", "statement": "Over all connections the channel of Ready is closed at most once, and exactly when a ready item has been handled; a ready item that has arrived on a connection with a subscription is handled. The goroutine never dereferences a subscription id that it does not have.", "quantifier": "All sequences of connections, failures and messages, all moments of Close, all schedules.", "why_tests_cant": "Closing a channel twice panics; needs several connections each with its own ready item, and connections that break before the subscription.", "anchors": ["transports/websockets.go: websocketConsumer.Start lines 321-406"]}
{"id": "C104", "title": "Close of a websocket consumer stops it", "statement": "Close returns; after it the goroutine of Start ends and no connection stays open.", "quantifier": "All sequences of connections, failures and messages, all moments of Close, all schedules.", "why_tests_cant": "Needs Close at every point of the reconnecting loop.", "anchors": ["transports/websockets.go: websocketConsumer.Start lines 326-333, 347-385, Close lines 479-482"]}
{"id": "C105", "title": "From the producer through the server to the subscribers of a websocket consumer", "statement": "A consumer connects to a server that has published some blocks, of which the consumer knows the first, and that goes on publishing. The subscribers of the consumer see every block it did not know exactly once, in chain order and exactly as the producer was given it, whether the server had it stored or sent it live; the consumer does not fault.", "quantifier": "All blocks and sub-batches, all numbers of other clients and what they do, all moments of the subscription between two publications, all schedules of producer, server, clients and consumer, all map orders.", "why_tests_cant": "Needs the producer, the goroutines of the server and the consumer together, with every interleaving of the hand-over from the stored to the live blocks.", "anchors": ["transports/websockets.go: websocketProducer lines 96-190, websocketStreamsService.Streams lines 192-290, websocketConsumer.Start lines 321-471", "delivery/ordering.go: OrderedMessageProcessor"]}
{"id": "C106", "title": "A websocket consumer that connects again loses nothing and repeats nothing", "statement": "A server answers each request of a websocket consumer with the blocks after the position asked for, one block after the other, and connections break at any point, also between a block and its sub-batches. Then at every moment the subscribers have seen an initial part of the chain, each block once, in order and exactly; whenever the consumer has worked off what it read, it would ask for exactly what follows the block seen last; and once a connection lasts, the subscribers see all blocks.", "quantifier": "All chains, all numbers of connections and all points at which they break, all forms in which a block is sent (stored or live), all places of the ready item, all schedules and map orders.", "why_tests_cant": "Needs every point at which a connection can break, in combination with the state of the block being assembled and the position remembered.", "anchors": ["transports/websockets.go: websocketConsumer.Start lines 321-471, newWebsocketConsumer lines 313-315", "delivery/ordering.go: OrderedMessageProcessor"]}
{"id": "C107", "title": "A reorg announced on the main topic is processed wholly, in place of its announcement", "statement": "When the Kafka consumer receives the announcement of a reorg, it starts a second consumer on the reorg's own topic, waits until that one is ready and closes it. Then the messages given to the message processor are those of the main topic in turn with all messages of the reorg's topic in the place of the announcement; nothing of the reorg is processed at the same time as later messages of the main topic; nothing panics; and the main consumer goes on.", "quantifier": "All main topics, all contents of reorg topics, all moments at which the announcement is received relative to the writing of the reorg's topic, all schedules of all goroutines.", "why_tests_cant": "Needs the interleavings of the goroutines of two consumers with the time at which another process writes the reorg; the position at which the inner consumer begins depends on that time.", "anchors": ["transports/kafka.go: KafkaConsumer.Start lines 553-580, 636-646, 666-695", "transports/kafka.go: Ready and Close lines 744-759"]}
{"id": "C108", "title": "A websocket consumer handles the items of its subscriptions once each, in the order they arrived, over all connections", "statement": "However often the connection of a websocket consumer breaks, fails or is made again, the items it has handled are an initial part of the items that arrived for its subscription on the first connection, then on the second, and so on; all that arrived on a connection has been handled when the next one is made; when nothing is unread everything has been handled; and the reading goroutine returns only after Close.", "quantifier": "All sequences of arriving messages on all connections, all points at which connections break, all schedules, Close at any time.", "why_tests_cant": "Needs all interleavings of arrivals, breaks and reads over an unbounded number of connections.", "anchors": ["transports/websockets.go: websocketConsumer.Start lines 321-471", "transports/websockets.go: Close lines 479-482"]}
{"id": "C109", "title": "Ready of a muxed consumer answers every call once a transport is ready, and not before", "statement": "Whoever calls Ready of a muxed consumer is answered after at least one of its transports has become ready, and never before; every call is answered then; and every transport that has become ready can finish what follows.", "quantifier": "All lists of transports (Kafka, websocket, null), all numbers of calls, all orders in which the transports become ready and the calls are made, all schedules.", "why_tests_cant": "Needs the interleavings of the goroutines of all calls with those of the transports; the losing goroutine simply waits and no test notices.", "anchors": ["transports/resolver.go: muxConsumer.Ready lines 178-203", "transports/kafka.go: Ready lines 744-749, Start lines 633-646", "transports/websockets.go: Ready lines 483-485", "transports/null.go: Ready lines 24-28"]}
{"id": "C110", "title": "Close of the ordering layer ends its goroutine after everything has been handled", "statement": "Close of an OrderedMessageProcessor returns within a second; when it has returned the goroutine of the processor has ended; and the goroutine does not end while a block or a notification waits in its channels.", "quantifier": "All times at which items arrive and at which Close is called, all durations of handling an item, all choices of select.", "why_tests_cant": "Depends on timers of two goroutines and on the choice of select between a timer and a channel; the losing interleavings are a moment wide or need a second of steady traffic.", "anchors": ["delivery/ordering.go: NewOrderedMessageProcessor lines 62-101", "delivery/ordering.go: Close lines 365-371"]}
{"id": "C111", "title": "From a Kafka topic to the subscribers with forks: they end at the heaviest block", "statement": "The messages of a tree of blocks on the last processed block are in the partitions of a topic, between heartbeats and pings, so that in every partition no header comes before all messages of its parent. Then no goroutine of a Kafka consumer faults or waits for ever; at every moment the head of the subscribers is the first-handled block of maximal weight; and when the consumer has come to rest they hold, having applied all updates, a chain of blocks exactly as produced that ends in a heaviest block of the tree. In a topic of one partition this is so whenever the producer was given parents before children and every call returned nil.", "quantifier": "All trees of at most 2*ReorgThreshold blocks, all numbers of partitions and ways to fill them within the condition, repeated messages, all schedules of the partition goroutines, the dispatcher and the ordering layer, all codecs meeting the law, eviction requests acted on at any time after they were sent.", "why_tests_cant": "Needs all interleavings of partitions and goroutines over trees of blocks.", "anchors": ["transports/kafka.go: KafkaConsumer.Start lines 541-740", "transports/kafka.go: AddBlock, SendBatch, emitBundle", "delivery/consumer.go: ProcessMessage", "delivery/ordering.go: NewOrderedMessageProcessor, HandlePendingBatch"]}
{"id": "C112", "title": "A topic consumer delivers every message of every partition, and closing it ends it", "statement": "The reader of Messages() receives from every partition exactly the messages it offers, each once and in their order, for every buffer size; after Close every goroutine ends, the reader's loop over Messages() ends and the client is closed; and when NewTopicConsumer returns an error no goroutine is left. [False of the code from 'after Close' on: the channel and the client are never closed; a goroutine that waits on a full channel nobody reads stays for ever; Close stops at the first error and leaves the later partition consumers open; an error in the loop of NewTopicConsumer leaves the goroutines of the earlier partitions.]", "quantifier": "All numbers of partitions, all messages, all buffer sizes including 0, all schedules of the goroutines, the reader and a call of Close at any time, all results of Close of the partition consumers.", "why_tests_cant": "Needs all interleavings of goroutines, reader and closer; a goroutine that never ends is not observable in a test.", "anchors": ["utils/kafka.go: NewTopicConsumer, Messages, Close"]}
{"id": "C113", "title": "The options of a Kafka URL set what they name", "statement": "ParseKafkaURL never panics; an option that is a number is exactly the number of the configuration (durations in milliseconds), an option that is a known word selects what it names, an absent option leaves Sarama's default except that compression is snappy, retries are 100 and all replicas must acknowledge, and no option changes what another sets. [False of the code: a number the field cannot hold is taken modulo a power of two, and a URL that does not parse makes it panic.]", "quantifier": "All URLs, all sets of options in any order, all 64-bit numbers, all defaults of Sarama.", "why_tests_cant": "Infinite domain; independence of the options is a statement about pairs of URLs.", "anchors": ["transports/kafka.go: ParseKafkaURL lines 68-147"]}
{"id": "C114", "title": "A Kafka producer that was made finds its topics, and no existing topic was changed", "statement": "When the calls of CreateTopicIfDoesNotExist in NewKafkaProducer return nil, the default topic and every topic of the schema exist. Whatever they return, topics that existed and topics the producer does not use are as they were. A new topic has two partitions per broker, min(3, brokers) replicas and the message limit that the producer is configured with; with 1 to 32767 brokers that answer, all calls succeed.", "quantifier": "All clusters, all topics and schemas in every map order, all failures of the cluster at any point.", "why_tests_cant": "Needs all failure points and map orders.", "anchors": ["transports/kafka.go: CreateTopicIfDoesNotExist lines 152-214", "transports/kafka.go: NewKafkaProducer lines 234-243"]}
{"id": "C115", "title": "Maps that goroutines share are not accessed by two at a time when one writes", "statement": "No execution has two goroutines inside accesses of one of the maps of the waiter, of a MessageProcessor, of an OrderedMessageProcessor or of a ping tracker (nor of the hash of the last block emitted) when one of the accesses writes. The sections of the waiter that take its lock never wait for each other for ever.", "quantifier": "All numbers of goroutines, all sequences of sections and accesses, all interleavings.", "why_tests_cant": "A data race shows only with the right interleaving; the race detector sees only those that happen.", "anchors": ["waiter/waiter.go: sections lines 64-100, 121-123, 142-144", "delivery/consumer.go: MessageProcessor lines 190-198, 254-268, 286-401, 409-419", "delivery/ordering.go: lines 170-183, 241-245, 374-378", "transports/kafka.go: pingTracker lines 31-46, 315-326, 730-742", "transports/websockets.go: line 408"]}
{"id": "C116", "title": "Several subscribers may call Done on what they were sent", "statement": "However calls of Done (on blocks, or on chain updates) by several goroutines interleave, none panics, and when all have returned exactly the channels of the blocks they were made on have been closed, once each. [False of the code when two goroutines call it on the same block, as two subscribers that get the same chain update do: both may read the channel before either sets it to nil, and the second close panics.]", "quantifier": "All numbers of goroutines, all lists of blocks, all interleavings of the reads, writes and closes.", "why_tests_cant": "The window between reading the channel and setting it to nil is too small to hit in a test.", "anchors": ["delivery/consumer.go: PendingBatch.Done lines 76-81", "delivery/ordering.go: ChainUpdate.Done lines 134-138", "delivery/ordering.go: prepareEmit line 274"]}
{"id": "C117", "title": "The assembler lets go of the blocks it is done with", "statement": "The message processor holds each block in at most one of its places (queued messages, being assembled, noted as emitted, noted as dropped), and when all blocks that were sent have been emitted or dropped as too old it holds no messages of them and a bounded number of notes. [False of the code: messages of a block whose header is lost are never let go, the notes of dropped blocks only at a Reorg message, and an undecodable sub-batch header keeps queued messages beside the block.]", "quantifier": "All messages in all orders and numbers of copies, all eviction requests, all map orders, all codecs.", "why_tests_cant": "Leaks show only after long runs with losses; a test sees a few blocks.", "anchors": ["delivery/consumer.go: ProcessMessage lines 271-401", "delivery/consumer.go: queueMessage lines 404-407", "delivery/consumer.go: EvictOlderThan lines 247-252"]}
{"id": "C118", "title": "The text of a websocket message says what was sent", "statement": "Reading the bytes that json.Marshal makes of a notification gives the consumer the message that the producer sent, whatever was read before, with strings escaped and numbers, hashes and byte strings in hexadecimal; so a block whose messages arrive as bytes is handed on with the contents given to the producer. [False of the code: strings that are not UTF-8 change, and a block whose weight is negative or has more than 256 bits is read as an empty block without hash, which is handed on.]", "quantifier": "All messages, all ways of writing escapes and empty collections, all sequences of messages with empty messages in between, all earlier contents of the shared variable `notification`; and for the reading loop, all sequences of bytes.", "why_tests_cant": "The space of keys, values and byte sequences is unbounded; errors of json.Unmarshal are ignored, so a wrong reading does not show.", "anchors": ["transports/websockets.go: resultMessage, TransportBatch, transportSubbatch lines 43-86", "transports/websockets.go: connect, read loop lines 375-403"]}
{"id": "C119", "title": "The whole consumer follows forks without end", "statement": "A consumer that runs for ever, with forks and with blocks being forgotten and dropped on the way, hands every block to the ordering layer exactly once and in the order of completion, never faults, and its subscribers always follow the first heaviest block - as long as messages arrive block by block (copies soon after, anything but headers also before), new blocks branch off at recent blocks, and no block to come is lower than a forgotten one.", "quantifier": "All trees of blocks of any size, all orders and repetitions of their messages within the condition, all schedules of the two goroutines, all eviction requests sent and acted on or lost, all map orders, all lawful codecs.", "why_tests_cant": "The window must overflow many times under every schedule of two goroutines that feed back on each other; tests stop after a few blocks.", "anchors": ["delivery/ordering.go: HandlePendingBatch lines 114-223", "delivery/ordering.go: lines 62-100", "delivery/ordering.go: lines 225-353", "delivery/consumer.go: ProcessMessage lines 271-401", "delivery/consumer.go: EvictOlderThan lines 247-252"]}
{"id": "C120", "title": "A Kafka consumer follows forks without end", "statement": "From a Kafka producer over a partition to the subscribers of a consumer, any number of blocks with forks may flow: nothing faults or waits for ever before everything is read and handled, the head is always the first-handled heaviest block, at rest every block was handed over exactly once and in order, and the subscribers hold a chain of blocks as produced that ends in a heaviest block.", "quantifier": "All trees of blocks of any size in which each block branches off at a recent block and none is lower than a forgotten one, all producers and map orders, all pings and heartbeats in between, all schedules of partition readers, dispatcher, ProcessMessage and ordering layer, all eviction requests sent and acted on or lost; and, for any number of partitions, all ways of reading them in which the blocks are completed in order.", "why_tests_cant": "The window must overflow many times under every schedule of four kinds of goroutines; tests stop after a few blocks and see one schedule.", "anchors": ["transports/kafka.go: Start lines 538-700", "transports/kafka.go: AddBlock lines 352-364", "delivery/ordering.go: HandlePendingBatch lines 114-223", "delivery/consumer.go: ProcessMessage lines 271-401"]}
{"id": "C121", "title": "A websocket consumer follows forks without end", "statement": "From a websocket producer to the subscribers of a consumer, any number of blocks with forks may flow: nothing faults or waits for ever before everything is read and handled, the head is always the first-handled heaviest block, at rest the ordering layer was given every block in the order in which its last part was sent, and the subscribers hold a chain of blocks as produced that ends in a heaviest block.", "quantifier": "All trees of blocks of any size in which each block, when complete, branches off at a recent block; all interleavings of the blocks and of their sub-batches, all map orders, all schedules of reader, dispatcher and ordering layer; and, without the producer, all reconnections, with blocks completed on one connection or several.", "why_tests_cant": "The window must overflow many times under every interleaving of parts and every schedule; tests stop after a few blocks and see one schedule.", "anchors": ["transports/websockets.go: Start lines 321-471", "transports/websockets.go: AddBlock and SendBatch lines 131-178", "delivery/ordering.go: HandlePendingBatch lines 114-223", "delivery/consumer.go: ProcessMessage lines 271-401"]}
{"id": "C122", "title": "A websocket consumer over connections that break", "statement": "A websocket consumer that dials, subscribes, reads and handles blocks, over connections that may break at any moment, while Close may be called: as long as each connection answers its request with the blocks that follow, nothing faults, the subscribers have seen each block of an initial part of the chain once and in order, and every request asks for what follows the block seen last. When the consumer can do nothing by itself, it has handled all that arrived and waits on a connection that is there, or Close was called; and it cannot go on for ever without dialling. With forks, the head is the first-handled heaviest block, and at rest the subscribers hold a chain that ends in a heaviest block.", "quantifier": "All chains and trees of blocks, all numbers of connections, all points at which they break or dialling fails, all interleavings of arrivals, the reading goroutine, the ordering layer, Start and Close.", "why_tests_cant": "The moment at which a connection breaks relative to the parts of a block, the goroutine of the ordering layer and Close has unboundedly many cases; tests break a connection at a few of them.", "anchors": ["transports/websockets.go: Start lines 321-471", "transports/websockets.go: Close lines 479-482", "delivery/ordering.go: HandlePendingBatch lines 114-223", "delivery/consumer.go: ProcessCompleteBatch lines 254-268"]}
{"id": "C123", "title": "A websocket server and a consumer that reconnects to it", "statement": "A websocket server whose producer is given the blocks of a chain one after the other serves any number of clients; a consumer connects, loses the connection at any point and connects again. If on each request the application hands out the blocks that follow the position asked for, up to those given to the feed when the client is subscribed, then the consumer never faults, its subscribers have at any moment seen each block of an initial part of the chain once and in order, and when server and consumer have come to rest and the newest connection has brought what was sent on it, they have seen the whole chain.", "quantifier": "All chains, all numbers of clients and connections, all points at which connections break, all schedules of the goroutines of the server and of the consumer, all numbers of stored blocks per request.", "why_tests_cant": "The point at which stored blocks end and the feed begins, the point at which a connection breaks and the schedules of a dozen goroutines combine without bound; tests see one combination per run.", "anchors": ["transports/websockets.go: Streams lines 225-296", "transports/websockets.go: AddBlock and SendBatch lines 131-178", "transports/websockets.go: Start lines 321-471"]}
{"id": "C124", "title": "Blocks and starting points without a weight", "statement": "A block without a weight (a nil pointer, as in a websocket message without one), or a starting point given without a weight, is treated by the ordering layer as one of weight zero and does not crash the consumer.", "quantifier": "All configurations, all histories of blocks with and without weights and of reorg notifications, all map orders.", "why_tests_cant": "Whether a nil pointer is compared depends on the shape of the block tree and on the order of arrival; a test with one chain never compares weights.", "anchors": ["delivery/ordering.go: HandlePendingBatch lines 164-234", "delivery/ordering.go: getPendingChild and getPendingChainDifficulty lines 295-332", "transports/websockets.go: block from a message lines 410-418"]}
{"id": "C125", "title": "A websocket message is understood in every form that JSON allows", "statement": "The parser accepts exactly the texts of the JSON grammar of RFC 8259 (and, as encoding/json does, literals that are not UTF-8 or have unpaired surrogates, read as U+FFFD), and a notification for the consumer's subscription is taken for the message it says whatever white space, escapes, order of members, unknown members, spelling of names and case of digits it is written with.", "quantifier": "All byte strings; all JSON texts; all notifications and all states of the variable they are read into.", "why_tests_cant": "The project's tests only read what its own server writes; a server of another version or language writes the same message differently, in infinitely many ways.", "anchors": ["transports/websockets.go: types lines 44-83", "transports/websockets.go: reading a notification lines 380-400", "transports/websockets.go: the switch on its type lines 401-466"]}
{"id": "C126", "title": "A subscription starts at the server's answer and nothing before it is delivered", "statement": "On a new connection the consumer takes the first message that is an answer to its call (a JSON object whose last id is that of the call, byte for byte, and whose last result is a subscription id) for the start of the subscription; whatever comes before it, notifications included, is dropped, and whatever comes after it is taken for the messages it says. While there is no such answer, as after a refusal, nothing is delivered. The request that is sent is JSON and asks for exactly the number and the hash from which the consumer wants to go on.", "quantifier": "All ids of a call; all byte strings before and after the answer; all subscription ids, numbers and hashes.", "why_tests_cant": "A test sends one well-formed answer; which of all possible messages count as one, and what is lost before it, are statements about all byte strings and all sequences of them.", "anchors": ["transports/websockets.go: the call lines 337-344", "transports/websockets.go: waiting for the answer lines 345-373", "transports/websockets.go: Subscribe lines 225-260"]}
{"id": "C127", "title": "Exactly which messages end a consumer's process", "statement": "In every reachable state ProcessMessage panics or fails to return exactly in these ways: the key is shorter than 33 bytes; or, the block of the message being assembled: a sub-batch message with a key shorter than 65 bytes or an index outside its sub-batch, the header of an expected sub-batch with a negative number of messages or with fewer than a message that came before it needs, an update or deletion that comes where nothing is to come any more (with FailedReconstructPanic), and an update or deletion whose path starts with a slash and has nothing to come for it or any directory above it (does not return). The header of a block does exactly if one of the messages that waited for it does when they are gone through. Everything else returns.", "quantifier": "All reachable states, all messages, all eviction requests, all iteration orders, all paths and counters.", "why_tests_cant": "That a test sees a panic shows one bad message; that there are no others is a statement about all messages in all states, among them messages that were queued long before.", "anchors": ["delivery/consumer.go: ProcessMessage lines 271-401", "delivery/consumer.go: ApplyMessage lines 102-150", "delivery/consumer.go: DecPrefixCounter lines 152-173"]}
{"id": "C128", "title": "Ordering ends whatever numbers and weights blocks claim", "statement": "Handling any history of blocks and reorg notifications ends if the parent links of the delivered blocks do not run in a circle, whatever their numbers and weights are; in particular if blocks are heavier than their parents. If they do run in a circle, a heavier block on top of one of them makes the search for the common ancestor go round for ever.", "quantifier": "All histories of blocks with non-zero hashes and one parent per hash, all reorg notifications, all thresholds, all iteration orders.", "why_tests_cant": "Termination for all block trees, with numbers and weights that need not make sense; a test that ends says nothing about the next tree.", "anchors": ["delivery/ordering.go: evict, finishPendingChildren, getPendingChainDifficulty, HandlePendingBatch, prepareReorg lines 334-359"]}
{"id": "C129", "title": "A restarted consumer is not disturbed by what it receives again", "statement": "A consumer started from a stored block receives, in any order and any number of times, messages of the blocks on top of it and also of older blocks: the stored block itself, its ancestors, abandoned forks, perhaps not all messages of them. It never fails, removes nothing, and tells the application the blocks on top of the stored block, in order, once each and exactly as produced; it never tells it an older block. Once all messages of the new blocks have been handled, all of them have been told.", "quantifier": "All chains on the stored block, all sets of older blocks neither higher nor heavier than it, all orders and repetitions of their messages, all interleavings of the goroutines, all iteration orders, thresholds and eviction requests that the ordering layer makes.", "why_tests_cant": "After a restart the consumer reads back by a rollback, so a mix of old and new messages is the normal case; tests replay one such mix.", "anchors": ["delivery/ordering.go: newOrderedMessageProcessor lines 46-75, HandlePendingBatch, evict, prepareEmit", "delivery/consumer.go: newMessageProcessor, evictOlderThan", "transports/kafka.go: NewKafkaConsumer lines 215-301 (the rollback)"]}
{"id": "C130", "title": "Over any number of restarts every block is applied exactly once", "statement": "An application applies blocks as it is told and stores the last one. The consumer may be stopped at any moment and started again from the stored block, any number of times, each time receiving whatever messages of the chain and of older blocks, in any order and any number of times. What has been applied over all lives is always an initial part of the chain, in order, once each, exactly as produced; no life faults or asks for a removal. A life in which all messages of the remaining blocks arrive completes the chain. Those messages do arrive if the consumer reads from the stored block's resumption offsets, moved back by the rollback, and they are at most that far behind.", "quantifier": "All chains and older blocks, all numbers of lives, all moments of stopping, all messages received in each life, all interleavings, iteration orders and thresholds.", "why_tests_cant": "The statement is about unboundedly many crashes at unboundedly many moments; a test crashes a few times at chosen points.", "anchors": ["delivery/ordering.go: newOrderedMessageProcessor lines 46-75, HandlePendingBatch", "delivery/consumer.go: newMessageProcessor, ProcessMessage", "transports/kafka.go: NewKafkaConsumer lines 215-301", "delivery/types.go: Resumption"]}
{"id": "C131", "title": "A restarted consumer follows heavier forks from below the stored block", "statement": "A consumer restarted from a stored block that receives a tree of blocks containing the stored block, forks from below it included, ends on the heaviest block of the tree; before the stored block has come again, nothing is told to the subscribers. This holds if the blocks fit the window, blocks come after their parents and those at least as heavy as the stored block come after it. Blocks of which messages are missing, and blocks of any weight with no connection to the tree (a reader that begins anywhere finds such blocks), make no difference, wherever they come. Without that order it is false: a fork block on the stored block's parent that comes before that parent is never looked at again, so the consumer stays on the stored block however long and heavy the fork grows. In every order nothing faults.", "quantifier": "All block trees and stored blocks in them, all message orders (of the stated kind for the positive part), repetitions, interleavings, iteration orders and thresholds.", "why_tests_cant": "Quantifies over all trees below and above the restart point and all interleavings; a test restarts with a few chosen blocks.", "anchors": ["delivery/ordering.go: newOrderedMessageProcessor lines 46-75, HandlePendingBatch lines 185-233, prepareReorg, queue", "delivery/consumer.go: ProcessMessage"]}
{"id": "C132", "title": "Starting at a point in time", "statement": "A consumer with a start hash that is given the resumption string for a time reads, in every partition of every topic, every message not older than that time that is still kept when it starts, including those that came after the string was made; and at most `rollback` messages before the first of them. The second part is false for a time after the last message of a partition: the broker's answer -1 is below every rollback, and the partition is read from its oldest message. Without a start hash the first part is false: an offset below the rollback makes the consumer start at the newest message.", "quantifier": "All partitions with all messages and times (not necessarily increasing), all times, rollbacks, topics and later states of the partitions (appended to, old messages dropped).", "why_tests_cant": "Concerns all contents of the broker at two moments; it needs a broker, and the wrong cases only show with particular offsets.", "anchors": ["transports/kafka.go: kafkaResumptionForTimestamp lines 508-528, kafkaConsumerWithOMP lines 476-486, Start lines 548-579"]}
{"id": "C133", "title": "A Kafka consumer stopped and started again", "statement": "A Kafka consumer whose application stores the last applied block with its Resumption string, and which is stopped at any moment and started again from them any number of times, applies the blocks of the chain in order, once each, exactly as produced, whatever the broker has dropped or received in between and however the goroutines are scheduled. The stored string can always be read, the start offset is found as long as the recorded messages are kept, no goroutine faults, no block is ever removed, and a life that can go on no further has handled everything read. If the broker still keeps the rollback window of the recorded offsets and the messages of the blocks not applied are at most the rollback behind the stored block, that life completes the chain; with one partition written block by block no rollback is needed. If the broker has dropped the first message of the window, Start begins at the recorded offset, and messages of the window that are kept are not read.", "quantifier": "All chains, numbers of partitions, contents and interleavings of the partitions, retention at every start, rollbacks, moments of stopping, schedules and map orders.", "why_tests_cant": "A test would need a broker with retention and kills at arbitrary points, and only samples schedules; the skipped window only shows if retention ends within it.", "anchors": ["transports/kafka.go: NewKafkaConsumer / kafkaConsumerWithOMP, Start lines 538-650", "delivery/consumer.go: PendingBatch.Resumption"]}
{"id": "C134", "title": "What the waiter keeps", "statement": "Left to itself the waiter comes to rest. Then it has goroutines and entries only for blocks that were announced and on which Done was not called, each entry with the channel of such a block; when all announced blocks are done nothing is left. A goroutine goes on only when Done was called on its block or on a block of the same number. [That what is kept is bounded once a block of every height was done is false of the code: blocks announced more than a minute after the block of their height was done are kept for ever.]", "quantifier": "All schedules of announcements, Done calls, expiries and waits, all states.", "why_tests_cant": "Leaks show in long runs only, and the sleep of a minute is longer than tests wait.", "anchors": ["waiter/waiter.go: NewOmpWaiter lines 53-103"]}
{"id": "C135", "title": "Blocks are announced before they are handed on, each with a channel of its own", "statement": "Whatever messages a message processor is given and whatever complete blocks are handed to it, in any order, every block that it sends to its subscribers has been announced before with the block's hash, parent and number and with the very channel that the block's Done will close; no two announcements share a channel and no two blocks do. Every announcement is of a block whose header was received or that was handed over, and blocks that are still being assembled have been announced too. The announcements are ones that the model of the waiter covers.", "quantifier": "all codecs, configurations, map orders and eviction requests; all sequences of messages (valid or not) and of complete blocks without a channel", "why_tests_cant": "The channel of a block passes through three goroutines and is closed long after it was made; tests of the waiter make the announcements themselves, and none checks that the announcement on the one feed and the block on the other carry the same channel for every interleaving of messages, duplicates, evictions and complete blocks.", "anchors": ["delivery/consumer.go: Waiter lines 230-240", "delivery/consumer.go: ProcessCompleteBatch lines 254-268", "delivery/consumer.go: ProcessMessage lines 316-340, 394-399", "waiter/waiter.go: NewOmpWaiter lines 53-103"]}
{"id": "C136", "title": "A consumer of several transports delivers every block once, whichever transport brings it", "statement": "The transports of a muxed consumer hand messages (Kafka) and complete blocks (websockets) to one message processor and one ordering layer. Whatever the order in which they do, however often, and even if a transport brings only parts of a block: the consumer does not fault, its subscribers are told to add the blocks of the chain on top of the stored block in order and once each, nothing is removed, and when every block came - all its messages over all transports together, or the whole of it over one - all are delivered. Each block delivered is what was produced or what a transport handed over.", "quantifier": "all lawful codecs, configurations, map orders and schedules of the goroutines; all chains, older blocks and forks below the stored block; all sequences of calls made of messages of these blocks and of blocks with their headers, one call at a time", "why_tests_cant": "The tests of the muxed consumer use one kind of transport and blocks that come whole and in order; which transport brings which part of which block first has unboundedly many combinations.", "anchors": ["transports/resolver.go: ResolveMuxConsumer lines 94-107, resolveConsumer lines 58-74", "delivery/consumer.go: ProcessCompleteBatch lines 254-268", "delivery/consumer.go: ProcessMessage lines 271-401", "delivery/ordering.go: HandlePendingBatch lines 164-234"]}
{"id": "C137", "title": "Blocks published by several redundant producers are combined and delivered once", "statement": "Several producers publish the same block, and their schemas find the same prefixes in its keys. Their messages differ in bytes (a header is a map, encoded in any order; a sub-batch's deletes may be listed in any order), but whatever one of them sends, each other one sends a message with the same key. If each message of one producer arrives, or in its place the message with the same key of another, in any order and any number of times, then the consumer emits the block exactly as it was given to the producers, and never otherwise; over a whole chain its subscribers get every block once and in order. This fails when the schemas differ: the header that comes first decides what is waited for.", "quantifier": "all lawful codecs, all numbers of producers, map orders, block contents and sub-batches; all interleavings, duplications and mixtures of what the producers send; all messages of other blocks; all schedules of the consumer's goroutines", "why_tests_cant": "The tests have one producer per stream, so the consumer only ever sees parts of one encoding of a block; which parts come from which producer has unboundedly many combinations.", "anchors": ["SPEC.md lines 1-12", "delivery/producer.go: AddBlock lines 56-131", "delivery/producer.go: SendBatch lines 134-171", "delivery/consumer.go: ProcessMessage lines 271-401"]}
{"id": "C138", "title": "Every string has a known meaning as a resumption", "statement": "A string given to a Kafka consumer as resumption is accepted exactly if, among its parts separated by ';', every part of the form k=v (with no other '=') has a 64-bit decimal numeral as v, with or without sign and leading zeros. Parts of any other form are ignored. If it is accepted, it says about a source what the last part about that source says, and nothing about sources no part names. In particular a string without any part k=v is accepted and means the same as no resumption.", "quantifier": "all byte strings and all sources", "why_tests_cant": "The tests give the consumer an empty resumption or one it wrote itself; a stored one may come from anywhere, and there are unboundedly many strings.", "anchors": ["transports/kafka.go: kafkaConsumerWithOMP lines 476-484"]}
{"id": "C139", "title": "A websocket consumer stopped and started again", "statement": "A websocket consumer whose application stores the last applied block, and which is stopped at any moment and started again from it any number of times, applies the blocks of the chain in order, once each, exactly as given to the producer, as long as on each connection the server answers the request with the blocks after the position asked for, up to any point. In every life, at every moment, no goroutine faults and no block is taken back; when everything handed on has been worked off, the next request is for what follows the last block applied, as if there had been only one life. A life that rests has handled all that arrived; if its newest connection brought everything after the position asked for, the chain is complete over all lives. From every such state a further life can complete the chain.", "quantifier": "All chains, numbers of lives, moments of stopping, numbers of connections and points at which they break, schedules and map orders.", "why_tests_cant": "A test would have to kill the consumer between any two steps of any goroutine, and to do so again and again.", "anchors": ["transports/websockets.go: newWebsocketConsumer and Start lines 313-470", "delivery/ordering.go: NewOrderedMessageProcessor"]}
{"id": "C140", "title": "Producers that follow SPEC.md are understood", "statement": "Whatever program sends the messages SPEC.md prescribes for a payload (one Batch message whose updates map has one of value, count, delete or subbatch per key; one BatchMsg or BatchDeleteMsg per key under a counted prefix; one SubBatchHeader per sub-batch and one SubBatchMsg per index), with its maps and lists encoded in any order and its weight with any leading zeros, in any order, with any duplicates and with anything about other payloads in between, the consumer emits the payload when every message has arrived, and whatever it emits under the payload's hash has exactly the payload's number, parent, weight, values and deletes as seen through the filter. A stream of nothing but such messages never makes it fault. What the producer of this repository sends is such a payload. Beyond SPEC.md the values must not be empty, identifiers of sub-batches not zero, and every counted prefix must be the key itself or one of its directories, made of ordinary names; for each of these there is a payload that follows SPEC.md and is not emitted, or emitted with something missing.", "quantifier": "All payloads that are consistent with SPEC.md and meet these conditions, all sets of payloads with different hashes, all received sequences and filters.", "why_tests_cant": "Tests use the library's own producer, so that both sides share its reading of the specification; programs written from SPEC.md alone are not available to a test.", "anchors": ["SPEC.md: Messages", "SPEC_example.md", "delivery/consumer.go: ProcessMessage, decPrefix"]}
{"id": "C141", "title": "Schemas of directory expressions meet the conditions of delivery", "statement": "Through a model of Go's regexp package (literals, escapes, classes, ., ^, $, groups, alternation, greedy and lazy *, +, ?): the parser accepts exactly the texts of the grammar and finds in each the one expression that the grammar says. FindString returns a match of the expression at the leftmost position at which there is one, and MatchString says whether there is one. A schema entry whose text has no alternation and does not begin with an operator on ^ matches only beginnings of keys; if its text also ends in a slash, what it matches in an ordinary key is one of the key's directories; an entry of ordinary characters matches exactly the keys that begin with it. If the expressions of a schema match up to a slash at a fixed depth and no two of them match nested prefixes, a producer made of it satisfies, for all blocks of ordinary keys, the conditions on prefixes under which blocks are delivered (C01). Refuted for schemas in general: the accepted entries a/|b/, state/thing and ^?b/ each send a block that no consumer ever emits although all its messages arrive.", "quantifier": "All expressions of the modelled syntax, all texts, all keys; all schemas, iteration orders, blocks and received sequences.", "why_tests_cant": "Tests use two or three fixed schemas and keys; the anchoring of alternations, the position of matches and the relation between matches and path elements are properties of all expressions and all keys.", "anchors": ["delivery/producer.go:22-41", "delivery/producer.go:70-81", "delivery/producer.go:89-99", "delivery/producer.go:115-120"]}
{"id": "C142", "title": "The order of a schema's entries does not matter", "statement": "Producers made of the same schema route every key alike, to the same prefix and topic, whatever order Go iterates over the schema map in, if the expressions match up to a slash at a fixed depth and no two match nested prefixes; redundant producers with that schema are therefore given the same block when called with the same arguments. Refuted for the schemas NewProducer accepts in general: it compares the texts of the entries, accepts [^/]+/baz/ together with bar/, and two producers made of that schema send the key bar/baz/1 under different prefixes to different topics.", "quantifier": "All schemas of the modelled expressions, all pairs of iteration orders, all keys.", "why_tests_cant": "Go randomises map iteration; a test sees one order per run and the test schemas do not overlap.", "anchors": ["delivery/producer.go:22-41", "delivery/producer.go:70-81"]}
{"id": "C143", "title": "What tracked prefixes track", "statement": "A consumer tracks exactly the prefixes in which one of its expressions has a match: with an expression of ordinary characters all prefixes it occurs in anywhere, with ^ before it those that begin with it, with .* everything, with . everything that has a byte other than a newline. Refuted: that a tracked prefix tracks only what begins with it (state/ tracks oldstate/; the expressions are not anchored as those of schemas are).", "quantifier": "All expressions of the modelled syntax, all lists of expressions, all prefixes (any bytes, valid UTF-8 or not).", "why_tests_cant": "Tests track everything (. or .*); what is not tracked is never asserted.", "anchors": ["delivery/consumer.go:342-350", "delivery/consumer.go:206-214"]}
{"id": "C144", "title": "The command-line tool starts a consumer", "statement": "cardinal-streams-cat, given a broker URL and at least one topic, starts the consumer that ResolveConsumer returns. Refuted: for every URL and all arguments it panics before it resolves anything, because the expression it tracks, *, does not compile; with .* in its place the claim holds, and everything is tracked.", "quantifier": "All URLs, argument lists and results of ResolveConsumer.", "why_tests_cant": "The command has no test.", "anchors": ["cmd/cardinal-streams-cat/main.go:17-47"]}
{"id": "C145", "title": "From producers that follow SPEC.md to the subscribers", "statement": "Whatever program sends the payloads, if it follows SPEC.md (and the conditions of C140): a chain of payloads on the last processed block, of any length, received in any order, any encoding and any number of times, reaches the subscribers as each payload exactly once, in chain order, each as it was sent, with nothing removed. With forks, and with every Batch message received after all messages of the parent payload as SPEC.md asks, the head is at every moment the first-handled payload of maximal weight, and at the end the subscribers, having applied all updates, hold a linked chain of payloads that ends in one of maximal weight of the whole tree. No goroutine ever faults and every execution can be completed.", "quantifier": "All payloads, chains of any length, trees up to twice the reorg threshold, all encodings, received sequences, schedules of the goroutines and iteration orders.", "why_tests_cant": "Tests only use this library's own producer; other encodings of the same payload and interleavings of several producers are unbounded.", "anchors": ["SPEC.md: Message Payloads, Batch, SubBatchHeader, SubBatchMsg, BatchMsg, BatchDeleteMsg", "delivery/consumer.go: MessageProcessor.ProcessMessage, PendingBatch.ApplyMessage", "delivery/ordering.go: OrderedMessageProcessor.HandlePendingBatch, HandleReorg"]}
{"id": "C146", "title": "Every subscriber gets every value once, in order, and the slowest sets the pace", "statement": "With any number of subscribers to updates, reorgs, blocks and waiters, of any capacity, subscribed and unsubscribed at any time and reading at any pace: what has been read from a channel is, in order, the first so many of the values sent on its feed since it was subscribed, and when all is done every channel still subscribed has got all of them. As long as the subscribers read, no goroutine waits for another forever. No subscriber gets ahead of another of the same feed by more than the other's buffer and one value, and the ordering goroutine gets ahead of no subscriber by more than its buffer and two. While one subscriber of the ordering layer accepts nothing, no block is handled and no other is served, and at most 100 blocks and 100 notifications pile up. When one of two feeds of a goroutine has been read up to some point of what was sent, the other has been read up to there except for what its buffer holds: two unbuffered channels give one order of updates and notifications, buffered ones do not (shown). A subscriber to updates from the start ends with a chain of blocks as produced that ends in a block of maximal weight, whatever the other subscribers do.", "quantifier": "All configurations, calls, schedules, iteration orders; any number of subscribers, capacities, times of subscribing and unsubscribing, and reading behaviours.", "why_tests_cant": "Tests use one subscriber with one capacity; the interleavings of two goroutines with several readers are unbounded.", "anchors": ["delivery/ordering.go: OrderedMessageProcessor.Subscribe, SubscribeReorg, NewOrderedMessageProcessor, prepareEmit, HandleReorg", "delivery/consumer.go: MessageProcessor.Subscribe, SubscribeWaiters, ProcessMessage, ProcessCompleteBatch"]}
{"id": "C147", "title": "A block is emitted with the message that completes it, and forks may arrive in any order in which gaps close well", "statement": "Of a block produced and not dropped, the consumer waits for exactly these messages: the header, the updates and deletes under accepted prefixes and the messages of sub-batches under accepted paths. It has emitted the block exactly if all of these have been received, in whatever order and whatever else was received. So, with not more blocks than the window holds and nothing dropped, blocks are emitted in the order in which the messages complete them, and that order is determined by the messages. If, completed in that order, the blocks of a tree close their gaps well (every block that hangs together with the last processed one is the heaviest of those that do, or the waiting blocks above it do not fork; every other is at most the threshold lower than the heavier ones; the last processed block comes first), then under every schedule the head of the subscribers always hangs together with the last processed block, no block handled that does so is heavier, nothing is asked to be dropped, and when all that matters has arrived the subscribers hold a chain of blocks exactly as produced that ends in a block of maximal weight of the whole tree.", "quantifier": "All lawful codecs, schemas, filters, blocks, sub-batches, orders and repetitions of messages, iteration orders, trees that fit the window, schedules of the two goroutines.", "why_tests_cant": "The orders of messages in which a block can be completed, and the orders in which several blocks can be, cannot be enumerated.", "anchors": ["delivery/consumer.go: MessageProcessor.ProcessMessage, PendingBatch.Ready, ApplyMessage, DecPrefixCounter", "delivery/ordering.go: OrderedMessageProcessor.HandlePendingBatch, prepareEmit, NewOrderedMessageProcessor"]}
{"id": "C148", "title": "A consumer stopped and started again any number of times follows forks", "statement": "An application stores the block at its head. Its consumer is stopped at any moment and started again from that block, any number of times, each time receiving the messages of a tree of blocks that contains the stored one and may fork from below it, parents before children and the stored block before blocks at least as heavy, and messages of other blocks that stay incomplete or are not connected to it, not more blocks in all than the window holds. Then the application can apply the outputs of all lives one after the other; it always holds a linked chain of blocks exactly as produced that ends in the block stored, whose weight never decreases; and when a life has received and handled everything, the chain ends in a heaviest block of its tree. Over Kafka this holds if the order holds in every partition, whatever order they are read in; no life faults or waits for ever before everything is read and handled. In a topic of one partition to which the blocks were written one after the other, parents first, a life may begin in the middle of a block, if all blocks read whole that do not descend from the stored block's lowest ancestor read are lighter than it; no condition on the order is needed: the stored block is always heavier than all blocks written before it, and a life that reads to the end leaves the application on a heaviest block of all ever produced.", "quantifier": "All lawful codecs, trees of blocks, filters, numbers of lives and moments at which they end, windows read, orders and repetitions of messages, partitions, schedules, iteration orders.", "why_tests_cant": "The combinations of several lives, each with its own schedule, its own part of the tree and its own moment of being stopped, cannot be enumerated.", "anchors": ["delivery/ordering.go: NewOrderedMessageProcessor, HandlePendingBatch, prepareEmit", "delivery/consumer.go: NewMessageProcessor, ProcessMessage", "transports/kafka.go: KafkaConsumer.Start"]}
{"id": "C149", "title": "A restarted consumer whose reader begins after the fork point ends on a heaviest block of those it reads", "statement": "A consumer of one partition, to which blocks were written one after the other, parents first, is started from the block its application stored and reads from anywhere before that block to the end. When it has read and handled everything, its head is a heaviest block of those read. This is false: if the block at which a heavier fork leaves the chain of the stored block is not read whole, the consumer stays on its own branch, however long and heavy the fork grows. What holds: it comes to rest on a heaviest block of those that descend from the lowest ancestor of the stored block that is read, which is a heaviest of all exactly if one of the heaviest descends from there; no update ever contains a block that does not; nothing faults.", "quantifier": "All lawful codecs, trees of blocks and weights, filters, lives before, points from which the reader begins (also in the middle of a block), schedules, iteration orders.", "why_tests_cant": "Quantifies over all trees, starting points and schedules; a test restarts at a chosen point, usually one that reaches back far enough.", "anchors": ["delivery/ordering.go: HandlePendingBatch, prepareReorg", "transports/kafka.go: NewKafkaConsumer (rollback), KafkaConsumer.Start"]}
{"id": "C150", "title": "A websocket consumer stopped and started again any number of times follows forks", "statement": "An application behind a websocket consumer stores the block at its head. The consumer is stopped at any moment and started again from that block, any number of times, each time over one or more connections on which the blocks of a tree come that contains the stored block and may fork from below it, in pieces or as stored blocks, with other blocks not connected to the tree; parents come before children and the stored block before blocks at least as heavy, and the blocks fit the window. Then no life faults or waits for ever before everything is read and handled; nothing is told to the application before the stored block has come again; from then on the head is the first-handled heaviest block of the tree; the application can apply the outputs of all lives one after the other and always holds a linked chain of blocks, exactly as given to the producer, that ends in the block stored, whose weight never decreases; and a life that has received and handled everything ends in a heaviest block of its tree. The conditions on the order hold when the producer is given each block after its parent and all sub-batches of the parent, and blocks not lighter than the stored one after that and all its sub-batches.", "quantifier": "All trees of blocks and contents, numbers of lives and moments at which they end, connections, orders and forms of messages, map orders and schedules of the two goroutines.", "why_tests_cant": "The combinations of several lives, each with its own schedule, connections, part of the tree and moment of being stopped, cannot be enumerated.", "anchors": ["transports/websockets.go: AddBlock, SendBatch, websocketConsumer.Start", "delivery/ordering.go: NewOrderedMessageProcessor, HandlePendingBatch, prepareEmit"]}
{"id": "C151", "title": "The SCRAM client is a conversation with the credentials given", "statement": "The client that a Kafka consumer or producer gives to Sarama for SCRAM answers, after a Begin that the library accepts, every Step and Done as a conversation of the library does that was made with the credentials of that Begin, whatever was done with the client before. It panics exactly if Step or Done is called before any Begin was accepted; used as Sarama does (a new client, Begin first, nothing after a refusal) it never does. Refuted for clients used again: a Begin that is refused leaves the conversation of an earlier Begin in place, and the client goes on answering with the earlier credentials.", "quantifier": "All implementations of the library, credentials, challenges and sequences of calls.", "why_tests_cant": "The adapter has no test; sequences of calls are unbounded.", "anchors": ["transports/scram.go:13-35", "transports/kafka.go:138-143"]}
{"id": "C152", "title": "A producer of several transports is made whole or not at all", "statement": "ResolveMuxProducer succeeds exactly when a producer can be made for every URL (Kafka brokers that answer; a websocket URL with a port and a resumer), and then has one new producer per URL, in order, of the kind the protocol of the URL names; exactly its Kafka producers start sending heartbeats, and clients of a websocket port that is free and named once reach the producer made for it. If it fails it leaves no goroutine behind. [False of the code unless the first URL is the one that fails: the producers made before stay; heartbeats of a producer nobody has keep being counted, and a later successful call yields a websocket producer that no client reaches, because the port stays with the abandoned one and the error of the server is lost.]", "quantifier": "All lists of URLs, all outcomes of url.Parse and of the brokers, all producers made before in the process.", "why_tests_cant": "Making producers is not tested at all; needs brokers that fail between calls.", "anchors": ["transports/resolver.go:27-48", "transports/websockets.go:90-118", "transports/kafka.go:227-323"]}
{"id": "C153", "title": "A consumer of several transports follows forks", "statement": "Messages of the blocks of a tree and complete blocks of it come over several transports, interleaved in any way, with duplicates and with a block coming whole, in messages, in messages of several transports, or several of these. If on no transport a block begins (its header message, or the whole of it) before its parent has come on that transport, then at every moment the head of the subscribers is the first-handled block of maximal weight among those handled; nothing is asked to be dropped; when all blocks have come and everything is handled the subscribers hold a linked chain ending in a block of maximal weight of the tree, each block of it as produced or as handed over, and exactly as produced if everything is tracked. No goroutine faults, whatever the order, and every execution can be completed.", "quantifier": "All trees with at most 2*ReorgThreshold blocks, all lists of calls of any number of transports, all interleavings, all schedules of the goroutines, all times at which eviction requests are heard.", "why_tests_cant": "The tests of the mux consumer use one transport of each kind and no forks; the interleavings of transports are unbounded.", "anchors": ["transports/resolver.go: ResolveMuxConsumer lines 94-107", "delivery/consumer.go: ProcessCompleteBatch lines 254-268", "delivery/consumer.go: ProcessMessage lines 271-401", "delivery/ordering.go: HandlePendingBatch lines 164-234"]}
{"id": "C154", "title": "A consumer of several transports that is stopped and started again follows forks", "statement": "An application behind a consumer of several transports stores the block at its head. The consumer is stopped at any moment and started again from that block, any number of times. In each life messages and complete blocks of a tree come that contains the stored block and may fork from below it, over any number of transports and interleaved in any way, with other blocks that are incomplete or not connected to the tree. On each transport a parent comes before its children begin and the stored block before blocks at least as heavy begin, and the blocks fit the window. Then no life faults, and every execution can be completed; nothing is told to the application before the stored block has come again; from then on the head is the first-handled heaviest block of the tree; the application can apply the outputs of all lives one after the other and always holds a linked chain of blocks, each as produced or as handed over (exactly as produced if everything is tracked), that ends in the block stored, whose weight never decreases; and a life in which all blocks of the tree have come and been handled ends in a heaviest block of its tree.", "quantifier": "All trees with, together with the other blocks, at most 2*ReorgThreshold blocks, numbers of lives and moments at which they end, lists of calls, interleavings of transports, schedules of the goroutines and times at which eviction requests are heard.", "why_tests_cant": "The combinations of several lives, each with its own transports, interleaving, part of the tree and moment of being stopped, cannot be enumerated.", "anchors": ["transports/resolver.go: ResolveMuxConsumer lines 94-107", "delivery/consumer.go: ProcessCompleteBatch lines 254-268", "delivery/consumer.go: ProcessMessage lines 271-401", "delivery/ordering.go: NewOrderedMessageProcessor, HandlePendingBatch, prepareEmit"]}
{"id": "C155", "title": "From a Kafka producer and a websocket producer to the subscribers of a consumer of both, with forks", "statement": "A Kafka producer and a websocket producer are given the same tree of blocks, each block after its parent (and, on the websocket, after the sub-batches of its parent). A consumer of both transports starts at the root of the tree. The Kafka transport has read some beginning of the partition, in which heartbeats and pings may lie between the messages; the websocket transport has read some items, over one connection or several. However the calls of the two transports are interleaved, no goroutine faults, every execution can be completed, and the head of the subscribers is the first-handled heaviest block. When one of the transports has brought everything, whatever the other has brought, and everything has been handled, the subscribers hold a linked chain of blocks of the tree that ends in a heaviest one, and if the consumer tracks everything the blocks are exactly as given to the producers.", "quantifier": "All trees of at most 2*ReorgThreshold blocks, producer histories, beginnings of the partition, items and connections, interleavings of the two transports, schedules of the goroutines and times at which eviction requests are heard.", "why_tests_cant": "How far each transport has come, how their calls are interleaved and how the goroutines are scheduled cannot be enumerated; tests run one transport.", "anchors": ["transports/resolver.go: ResolveMuxConsumer lines 94-107", "transports/kafka.go: KafkaConsumer.Start lines 653-695", "transports/websockets.go: websocketConsumer.Start lines 326-467", "delivery/consumer.go: ProcessCompleteBatch lines 254-268", "delivery/consumer.go: ProcessMessage lines 271-401"]}
{"id": "C156", "title": "Whatever arrives, subscribers are told of one continuous chain of blocks that were received", "statement": "Nothing is known of the producers: the consumer is given any messages (of any type, malformed, contradictory, incomplete, in any order) and any complete blocks. Every block that its subscribers are told to add or to remove was received: it was handed over as it is, or a header with its hash, number, weight and parent was received, and each of its values and deletes comes from a message of that block which the tracked prefixes accept. No such block is forbidden by the whitelist, and every reorg that subscribers are told of was received. If moreover nobody gives two different blocks the same hash, or the hash zero, what subscribers are told can always be applied: the removed blocks are the tip of their chain, the added ones are linked on what remains. Without that last condition the chain can break.", "quantifier": "All sequences of messages and complete blocks, all configurations (for the chain: with a last hash), all schedules of the goroutines, all map iteration orders, all times at which eviction requests are heard.", "why_tests_cant": "Tests send what correct producers send; the claim is about every possible input.", "anchors": ["delivery/consumer.go: ProcessMessage lines 271-401", "delivery/consumer.go: ApplyMessage lines 102-150", "delivery/consumer.go: ProcessCompleteBatch lines 254-268", "delivery/ordering.go: HandlePendingBatch lines 164-234", "delivery/ordering.go: prepareReorg lines 334-359"]}
{"id": "C157", "title": "Whatever a Kafka topic holds and whatever a websocket server sends, subscribers are told of one chain of received blocks", "statement": "Kafka: whatever the partitions of the topic hold, everything in the blocks that subscribers are told of was read from them and passes the filters, every reorg they are told of was read, and if hashes identify blocks the updates replay into one linked chain. Websockets: whatever the server sends on however many connections, every block subscribers are told of passes the whitelist and is made of one batch and of sub-batches read before on the same connection, each of which bears the hash of the block or an id its batch names; no values or deletes come from elsewhere. If the server sends no two batches with one hash that name different sub-batches, all sub-batches named had been read. If batches with one hash agree on parent, number and weight and none has the hash zero, the updates replay into one linked chain. Without the condition on sub-batches a block can be told of with a sub-batch missing.", "quantifier": "All contents of all partitions and all start offsets; all sequences of items on all sequences of connections; all configurations, schedules of the goroutines and map iteration orders.", "why_tests_cant": "Tests run against a correct producer; the claim is about every possible server and every possible topic.", "anchors": ["transports/kafka.go: partition goroutines and dispatcher lines 581-737", "transports/websockets.go: read loop lines 380-467", "transports/websockets.go: case batch lines 409-444", "transports/websockets.go: case subbatch lines 445-465", "delivery/ordering.go: HandlePendingBatch lines 164-234"]}
{"id": "C158", "title": "Whatever arrives, every subscriber can at any time apply what it has read", "statement": "Whatever messages and blocks arrive, however the goroutines are scheduled, and however subscribers come, read, stall and leave: everything a subscriber has read was received (every block in an update it read was received and passes the whitelist, every reorg it was notified of was received, every block it got was received). If hashes identify blocks and no reorg messages arrive, then at every moment a subscriber to updates that knows what was sent before it subscribed can apply the updates it has read so far, one after the other, and holds one linked chain. Without the condition on reorgs it cannot: the update after a reorg does not name the blocks the reorg took back.", "quantifier": "All sequences of calls, schedules, subscribers with channels of any capacity, configurations, map iteration orders and reachable states.", "why_tests_cant": "Tests look at the end of one run with one reader; the claim is about every prefix that every reader may have seen, under any input.", "anchors": ["delivery/ordering.go: Subscribe lines 144-154", "delivery/ordering.go: HandlePendingBatch lines 164-234", "delivery/ordering.go: HandleReorg lines 241-245", "delivery/ordering.go: prepareEmit lines 247-276"]}
{"id": "C159", "title": "A client of updates and reorgs with unbuffered channels reads one log, in order, and can always apply it", "statement": "A client subscribes to updates and to reorgs, at any time, on unbuffered channels. Whatever arrives, however the goroutines are scheduled and whatever other subscribers do: the values it reads from the two channels, in the order in which it reads them, are the first so many of the updates and reorgs sent since it subscribed, in the order of sending; when everything has been handled and read they are all of them. If hashes identify blocks, then at every moment the client, knowing what was sent before it subscribed, can apply what it has read in the order of reading, reorgs included, and holds one linked chain. With a buffer of one place on each channel this fails: a reorg can be read before the update sent before it.", "quantifier": "All sequences of calls, schedules, other subscribers, moments of subscribing, configurations, map iteration orders and reachable states.", "why_tests_cant": "The order between two channels is a race; a test sees the interleavings that happen.", "anchors": ["delivery/ordering.go: Subscribe, SubscribeReorg lines 144-162", "delivery/ordering.go: HandleReorg lines 241-245", "delivery/ordering.go: prepareEmit lines 247-276", "delivery/ordering.go: event loop lines 66-100"]}
{"id": "C160", "title": "Blocks that never become complete and stray messages do not disturb the consumer", "statement": "Besides the messages of a tree of blocks, any number of other messages arrive, anywhere between them: messages of other, correctly produced blocks of each of which at least one message that the consumer waits for never arrives (because the producer stopped in the middle, or the message is not there any more), parts of blocks with any content whose headers do not arrive, headers that cannot be decoded, and messages of types without content with any hash (but no notifications of reorgs, and no keys shorter than 33 bytes). Then everything C86 says still holds: no goroutine is ever about to fault under any schedule, and every execution can be completed; under the conditions of C86 the head is at every moment the first-handled block of maximal weight among those handled, and at the end the subscribers hold a chain of blocks of the tree, exactly as produced, that ends in a heaviest block of the tree. If the blocks form a chain on the last processed block, everything C44 says holds too: whatever the order of the messages, at the end the subscribers hold every block of the chain once, in order. Parts with arbitrary content, however, can take the consumer down as soon as a header of their block that can be decoded came before.", "quantifier": "All trees of correctly produced blocks, incomplete blocks, stray messages (number, place, content), orders, repetitions, schedules, map iteration orders, configurations.", "why_tests_cant": "Which messages are missing and what is left over is arbitrary; a test supplies a few cases.", "anchors": ["delivery/consumer.go: MessageProcessor.ProcessMessage lines 271-400", "delivery/consumer.go: queueMessage lines 404-407", "delivery/consumer.go: PendingBatch.ApplyMessage lines 103-150", "delivery/ordering.go: event loop lines 66-100"]}
{"id": "C161", "title": "A Kafka topic in which blocks are incomplete is read like one without these blocks", "statement": "The partitions of a topic hold the messages of a tree of blocks above the last processed block and, anywhere between them, heartbeats, pings and messages of any number of other, correctly produced blocks of each of which at least one message that the consumer waits for is in no partition (retention removed it, or its producer stopped in the middle). There may also be any messages that begin no block (C160), except messages that end a reorg. Then everything C111 says still holds: under every schedule and however the messages are spread over the partitions no goroutine is ever about to fault, the consumer comes to rest only when everything has been handled, and it cannot run forever. If in every partition the headers of the tree follow the messages of the parents, then at every moment the head is the first-handled block of maximal weight among those handled, and at rest the subscribers hold a chain of blocks of the tree, exactly as produced, that ends in a heaviest block of the tree. If the blocks form a chain on the last processed block, everything C87 says of the consumer holds too, whatever the order of the messages in the partitions: at rest the subscribers have seen every block of the chain exactly once, in order, exactly as produced, and every ping was counted.", "quantifier": "All trees and incomplete blocks, numbers of partitions, distributions, start offsets, schedules, map iteration orders and configurations.", "why_tests_cant": "What retention leaves of a topic depends on time and on the sizes of segments; a test has a fresh topic.", "anchors": ["transports/kafka.go: dispatcher lines 657-695", "delivery/consumer.go: MessageProcessor.ProcessMessage lines 271-400", "delivery/consumer.go: queueMessage lines 404-407", "delivery/ordering.go: event loop lines 66-100"]}
{"id": "C162", "title": "Calls of Done on a chain update reach its blocks, whatever the room in the arrays behind its slices", "statement": "All subscribers get the same chain update, and ChainUpdate.Done appends the blocks removed to the slice of the blocks added, which writes into the array behind that slice if it has room. The slices themselves are made by appending too, in prepareReorg and prepareEmit. However the making of any number of updates and the calls of any number of goroutines on them interleave, down to the copying and reading of single elements in Done, and whatever the capacities: every update holds at every moment the blocks that the ordering layer put in; a goroutine calls PendingBatch.Done on exactly the blocks added and then those removed of its updates, in order, each once per call, and never on a nil pointer; and it can always go on until its calls have returned. This needs that no subscriber appends to what Added returns: then Done can be called on what it appended instead of on a block removed.", "quantifier": "All numbers of goroutines and updates, lengths and capacities of the slices, capacities chosen by append, interleavings.", "why_tests_cant": "Whether append writes in place depends on capacities the program does not choose, and the interleavings of single writes cannot be forced in a test.", "anchors": ["delivery/ordering.go: ChainUpdate, Added, Removed, Done lines 121-138", "delivery/ordering.go: prepareEmit lines 246-276", "delivery/ordering.go: prepareReorg lines 334-359"]}
