# Formal model of openrelayxyz/cardinal-streams (Lean 4)

## Layout

* `lean/Verif/Model/*.lean` – the model, function by function, each definition citing `/repo` file and lines.
* `lean/Verif/Spec/*.lean` – small specifications, independent of the model's helpers.
* `lean/Verif/Proofs/*.lean` – helper lemmas and invariants.
* `lean/Verif/Props/*.lean` – the property theorems (names start with the property id) and, next to
  each, `example`s showing that the hypotheses are met by concrete non-trivial cases.
* `seeded/LOG.jsonl` – mutation log. Not covered by it: C161 (no edits were tried against it); C160 was tried against four edits only.

## Modelling conventions

* Go strings and byte slices are `List UInt8`; hashes are byte lists of length 32.
* Go maps are finite maps with unique keys. **Iteration order** is an oracle (`MapOrder`): an arbitrary
  permutation chosen per iteration site. Theorems quantify over all oracles.
* Go panics and infinite loops are explicit values (`Fault.panic`, `Fault.hang`); a function that can
  fault returns `Except Fault _`. Recursions/loops of the ordering layer carry fuel computed from
  the state; running out of fuel is `Fault.hang`, and it is proved that this cannot happen
  under the hypotheses of the property.
* Numbers are unbounded `Int`/`Nat`; where machine width matters (Avro 32/64 bit integers, `uint64` conversion)
  it is explicit.
* Avro is an external library (hamba/avro, not in the sandbox). The processors are parametrised by a codec;
  theorems assume only that decoding an encoding of an in-range value returns it
  (`Codec.Lawful`); `Model/Avro.lean` gives the concrete Avro binary codec and proves the law (C26).
* Regular expressions are functions `find : string → string` (`FindString`, "" for no match) resp. predicates
  (`MatchString`).
* golang-lru: recency list with capacity; eviction callback after removal.
* types.Feed / channels: FIFO queues; goroutine schedules are explicit step lists.

## Plan per property

| id | modelled | proof |
|----|----------|-------|
| C01,C02,C04,C14 | AddBlock/SendBatch + ProcessMessage | invariant relating a pending batch to the set of delivered messages, over all delivery lists |
| C03,C10,C41 | completed LRU, oldBlocks | LRU window invariant over all message lists |
| C05 | ProcessMessage | frame lemma per step; simulation between a processor fed everything and one fed the block's messages |
| C06 | header processing | provenance invariant |
| C07,C09 | resumption maps | minimum-offset invariant over histories; C09 by C01 on the log suffix |
| C08 | Resumption / parser | string round-trip by list induction |
| C11 | Reorg branch | case analysis for every state |
| C12,C13,C15,C16,C23,C27,C35,C39,C42,C52,C53 | as the code | refuted in full by a concrete execution of the model; `_partial` theorem for the part that holds |
| C17–C22,C24 | producer | induction over the argument maps under any iteration order |
| C25,C26 | keys, Avro | round-trip lemmas |
| C28–C34,C36–C38,C40 | ordering state machine | invariants over all histories; rank argument from block numbers; C37 without bound: position of recent blocks in the LRU, eviction spares what is upward closed (Proofs/OrderingRecent) |
| C43,C44 | MP, channels, OMP as one transition system | FIFO invariant; composition of C01 and C38; chains of any length, as eviction requests only name blocks already added (Proofs/OrderingLong) |
| C45–C47,C58 | Kafka producer/consumer decision logic | LRU invariants, case analysis |
| C48–C50 | resolver mux | list induction |
| C51–C54 | websocket producer/consumer | invariant over receive lists |
| C55–C57 | waiter, Done | transition system with goroutine steps, invariants over all schedules |
| C59,C60,C65 | resumption for a time | string lemmas shared with C08 |
| C61–C63 | dispatcher, watcher and scan of the Kafka transport | induction over the messages; refutations by evaluation |
| C64,C66 | resolver mux, broker URLs | list induction |
| C67 | partition goroutines | transition system, prefix invariant, progress measure |
| C68 | waiter | refutation by a concrete execution, partial by invariant |
| C69 | server side of a websocket subscription | transition system |
| C70–C72 | websocket frames, producer, repeated ids | invariants; refutations by evaluation |
| C73 | headers known when `NewKafkaProducer` returns | transition system of the watcher goroutines (`Model/Watch`); invariant "read = observed, offered or held"; refutation: a schedule |
| C74 | `NewKafkaProducer` returns | stuck states of the same system and a decreasing measure; refutation: a partition whose messages have all expired |
| C75 | the reorg topic is read completely | partition log model (`Model/Feed`), start offset of the sub-consumer, dispatcher; refutation: a finished reorg |
| C76 | reorg notifications and blocks keep their order | the pipeline model of C43; refutation: a schedule of the two channels; what holds: no notification or block is lost, each kind keeps its order |
| C77 | `LatestBlockFromFeed` finds the highest block of the feed | partition log model; exact description of the scanned window; refutation: a header followed by 100 heartbeats |
| C81 | `Resumption()` of quiet sources | invariant "noted offset = greatest offset received" through nested calls; composed with C08, C47 to `C09_kafka_restart` |
| C82 | blocks handed over complete | invariant over calls of both kinds: once sent, a hash stays in the cache until enough others were sent |
| C83,C40 | handled blocks are held and remembered | invariant `Stays` through eviction, emission and the recursion of HandlePendingBatch: only an eviction request with the block's number takes it away |
| C84 | blocks after a reorg notification | induction over the chain, each step by the invariant `Marks` (what is remembered, held and excluded was handled); reconnection through the path found by prepareReorg |
| C86 | the whole consumer with forks | composition of C01, C02, C28, C37 and C43; induction over the steps: no request sent so far, so no block dropped, so blocks are emitted after their parents, so no request is sent (Proofs/Truncate: a run depends only on requests up to its end) |
| C87 | Kafka from producer to subscribers | refinement: the consumer inside is a run of the two goroutines of C43 over the messages dispatched so far (calls may be appended to a run); composition of C67, C61, C44; lexicographic measure for termination; for the producer induction over its calls |
| C88 | websocket from producer to subscribers | refinement as in C87; the invariant of C51 for every block of the chain on the current connection, all complete blocks of earlier connections handed on; `chain_ordered` (from C38) for the ordering layer; for the producer the ownership lemma of C71 |
| C89 | websocket consumer with forks | C88's invariant gives: a block is handed on only after its batch message, hence after its parent was handed on; then C37, C35 and C28 for the ordering layer |
| C90 | Ready means read | a transition system of all goroutines of a Kafka consumer (`Model/Lifecycle`) with an invariant that splits each partition's messages into forwarded, in hand and to come; refutation: a run; what holds: executions in which the timer is slow |
| C91 | waiters for Ready are released | a measure that falls with every step (no endless execution) and a case analysis of the states without a next step; refutations: two runs that end with a waiting goroutine |
| C92 | Close returns | the same, with an invariant on how far Close is; refutations: four runs |
| C93 | names of reorg topics | spec: reading hexadecimal; induction on the bytes |
| C94 | WhyNotReady of a muxed consumer | spec: the calls with their answers; induction on the consumers; refutation: a websocket consumer in front |
| C95 | muxed consumer: resolve, Close, Waiter | induction on the consumers |
| C96 | a websocket reorg reaches the subscribers | an invariant: the notifications are those read so far, the blocks handled, in the channel and to come are those handed on; the ordering layer reports each notification once |
| C97 | a websocket reorg keeps its place | the same with the trace of both kinds of events; refutation: a schedule in which the reorg overtakes a block, evaluated by the kernel |
| C98 | a websocket server does not panic | a transition system of all subscriptions, the feed, the lock and the producer (`Model/Streams`) with an invariant per subscription |
| C99 | what a websocket client is sent | the same invariant: what was read and what waits are the stored blocks and the messages since the subscription |
| C100 | a client that leaves leaves nothing behind | a measure that falls with every step and a case analysis of the states at rest; refutations: two runs of a thousand steps, by induction |
| C101 | the early phase of a consumer without a last block ends | an invariant: updates that connect to nothing are fewer than the remembered hashes; no hash is forgotten before the cache is full |
| C102 | Start returns when subscribed | a transition system of the goroutine of `Start`, the network and `Close` (`Model/WebsocketLife`) with an invariant; refutations: two runs |
| C103 | ready once | the same invariant: the flag `isReady` is the number of closings; a connection without a subscription id has failed |
| C104 | Close stops the consumer | an invariant from the call of `Close` on, a case analysis of the states at rest and a measure; refutations: two runs |
| C105 | producer, server and consumer of a websocket | composition: what the server sends to a client (C99, C100) is carried from producer messages and stored forms (the spec of C88), so C88 gives what the subscribers see |
| C106 | reconnecting websocket consumer | an invariant of a consumer in an open world (`WSys.Served`): the blocks handed on are an initial part of the chain and the position is its end; per-block invariant of C52 for each piece, and the ordering layer as in C88. Where blocks are published interleaved, `C53_refuted` shows that blocks can be lost |
| C107 | a reorg from its own topic | two-level transition system (`NSys`: the outer dispatcher and any number of inner `LSys`); the invariant of an inner consumer is that of C92/C93 with one reader and one closer, so that what is closed has given all; replay of the main topic as spec; lexicographic measure for the end; refutations: runs |
| C108 | items over all connections | executions with a record of what arrived on each connection (`Spec.History`); invariant: what has been read of the current connection splits into what came before the answer and what came after; refutation: a run |
| C109 | Ready of a muxed consumer | transition system with a goroutine per call; invariant on the channels held; measure for the end; refutations: runs with a final state |
| C110 | closing the ordering layer | timed transition system (milliseconds; time passes only when nobody can go on); invariant on deadlines and on the arrival times of waiting items; refutations: runs |
| C111 | Kafka consumer with forks | the execution inside the consumer is an execution of C86 over what was dispatched (C87's invariant, with the requests sent before); an order that holds in each partition holds in every merge; the log of the producer is the messages of the blocks one after the other; refutation: a slow partition |
| C112 | topic consumer | one invariant: received, in the channel, in the hand of the goroutine and still to come make up the partition; a measure for finiteness; refutations as properties of all continuations |
| C113 | options of a Kafka URL | each field is computed from one option; the number parser inverts the decimals of any 64-bit number (C40's lemma) |
| C114 | topics of a Kafka producer | case analysis of one call, then induction over the calls |
| C115 | shared maps | invariant of the lock over all interleavings; ownership of maps; exact criterion for programs without locks |
| C116 | calls of Done | invariant over interleavings of the single reads, writes and closes; a schedule for the panic |
| C117 | what the assembler holds | invariants over all messages from the operations on its maps; growing counterexamples |
| C118 | JSON text | parser of the full JSON grammar over bytes; round trip by induction over strings, lists and members |
| C119 | the whole consumer with forks, without end | the requests sent are traced to forgotten blocks (C37_asked, through all steps of the ordering layer); induction over the groups of messages (C01, C02, C03: emitted once, in order), then over the steps of the pipeline; counting blocks per number for the simple condition |
| C120 | a Kafka consumer with forks, without end | the messages not yet read are thought of as waiting calls (the pipeline of C119 with a longer queue); one reader forwards a prefix of its partition (C67); the order of sending from C66 |
| C121 | a websocket consumer with forks, without end | the order in which blocks become complete, computed from the items alone, is that in which they are handed on; then C74 (AllTracked) on the ordering layer and C88 on the contents |
| C122 | a websocket consumer with its connections | each run of the goroutine with its connections (`Model/WebsocketWhole`) is matched by one of the consumer given the items per connection (C106, C121); a lexicographic measure bounds the work between dials |
| C123 | a websocket server and a consumer that reconnects to it | what a client has been sent at any time is a prefix of stored blocks and feed (invariant of C98), which come one after the other; then C122 |
| C124 | missing weights | simulation between the model with nil weights and the one without, which may only differ by a panic |
| C125 | the JSON grammar | grammar as inductive relations over bytes (Spec/Json.lean), completeness and soundness of the recursive-descent parser by induction on its fuel; members by projections of a fold |
| C126 | the subscription request and its answer as bytes | a fold over the members of an object characterised by its last members; the grammar of C125; composition with C118 |
| C127 | which messages end the process | the four ways of the search by induction on its rounds, path.Dir of a rooted path is stable after as many rounds as it has bytes; invariant: messages kept for later do no harm |
| C128 | ordering ends whatever the numbers | a depth for every hash is built by induction on the list of blocks (descendants of a new block are shifted), then the proof of C36 with the depth for the number |
| C129 | a restarted consumer | invariant of the ordering layer: nothing of the rest of the chain is finished or dropped, and no waiting block hangs on an older one; then the system refinement of C44 |
| C130 | any number of lives | induction over the lives; each life is an instance of C129 at its place in the chain, whose assumptions are kept when blocks move from the chain to the older blocks |
| C131 | forks from below the stored block | invariant of the time before the stored block comes (all older blocks finished, nothing told), which turns into the invariant of C37 with the root below; emission order at system level as in C86, for two orders at once; blocks beside the tree by a second invariant (`Mixed`: what is pending, queued and evicted splits into the tree and the rest, and the rest never touches the tree) |
| C132 | starting at a time | C59 gives the offset in the string, C47 the start offset; the first index with a new enough message is tracked through appending and dropping |
| C133 | Kafka consumer over several lives | the lives are mapped to those of C130; the string is read back by C08; C47 gives the start offset; offsets recorded in an emitted block are those of messages read (provenance); one partition is read in order, so everything noted before a header is before it |
| C134 | what the waiter keeps | invariant: every entry has a goroutine that will delete it (a watching one for its very channel, or a sleeping one); a measure that falls with every step of the waiter; refutation by induction on the number of late blocks |
| C135 | what is announced to the waiter | invariant of the message processor: channels are numbered in the order of the announcements, every pending block is announced and its channel is not that of a block sent; simulation by the waiter's transition system |
| C136 | muxed consumer with messages and complete blocks | invariant of the processor over mixed calls (rebased after each block handed over), then the ordering layer's theorem of C129 for blocks with the right headers |
| C137 | redundant producers | messages related by content (header entries equal as maps, delete lists up to order), then the invariant of C01 for any message so related; end to end by C44 |
| C138 | grammar of resumption strings | grammar without the parser; induction over the parts and over the digits from the right |
| C139 | websocket consumer over several lives | induction over the lives: the rest of a chain is a chain for a consumer that starts after the blocks applied, so C122 holds in each life |
| C140 | producers that follow SPEC.md | a payload written from the text of the specification is shown to be a block of the assembly invariant; the library's producer is shown to send one |
| C141 | Schemas of directory expressions meet the conditions of delivery | Backtracking search = declarative matching by induction on the expression; parser = declarative grammar (soundness by an invariant on the open groups, completeness by induction on the derivation); parser invariants on the stack of groups; slash counting |
| C142 | The order of a schema's entries does not matter | Uniqueness of the match of a directory expression; at most one entry matches a key |
| C143 | What tracked prefixes track | Corollaries of the search theorem; every ASCII byte begins a character |
| C144 | The command-line tool starts a consumer | Evaluation of the parser on `*`; case analysis of main |
| C145 | From producers that follow SPEC.md to the subscribers | C140 for assembly; the ordering layer sees only headers, so the chain and tree theorems (C38, C37) are applied to the headers of the payloads |
| C146 | Subscribers of the feeds | projection onto the two goroutines of C43; invariant relating what was read, buffered and offered to the started sends; lexicographic measure for progress |
| C147 | The moment of emission | C01 and C02 sharpened to an equivalence over the messages that matter; the emitted blocks are the completion order by induction over the messages; C39's invariant between arrivals carried over to the pipeline |
| C148 | Lives with forks | Induction over the lives; the subscriber's chain of the lives before is carried through the ordering layer's invariant (`FollowingOn`); each life by C131; over Kafka by merging the order of the partitions; for one partition the order follows from an invariant (`Record`: all blocks produced before the stored one are lighter); a reader that begins in the middle of a block splits what it reads into the tree of the stored block, blocks beside it and incomplete ones |
| C149 | Readers that begin after the fork point | C131's invariant for blocks beside the tree of any weight: between the tree and a block beside it `prepareReorg` only ever finds that the ancestor is missing, so nothing is emitted; chains that end in the tree are in the tree |
| C150 | Websocket lives with forks | The header-level part of C131 (`HeadersBelow.handled`) over the order in which a websocket consumer hands blocks on (`ws_emitted_after`), and the induction over lives of C148 (`run_followingOn`) |
| C151 | SCRAM client | Induction over the calls; the library is a parameter, what a conversation answers is an inductive relation |
| C152 | making a producer of several transports | Induction over the URLs; kinds of producers as a relation over URL, outcomes of the parser and brokers |
| C153 | several transports, forks | C136's invariant of the processor for any set of blocks; blocks sent on began in a call (lifting lemma), so parents come first; then C111's argument for the ordering stage |
| C154 | several transports, several lives, forks | blocks sent on came whole or are complete (`lift_calls`); order of beginnings gives order of sending (`sent_after`); then C131's and C148's arguments for the ordering stage and the application |
| C155 | two producers, two transports, one consumer, forks | a reading goroutine by itself does what it does in front of a processor of its own (`wsreads_alone`), so C89's invariants hold of it; C111's link gives the order in the partition; then C153 |
| C156 | whatever arrives | C06's provenance invariant lifted to calls, an invariant for notifications, then C43 and C28 with the world that the received headers describe |
| C157 | whatever the transports bring | C156 along the embedding of a Kafka consumer; for websockets an invariant of the maps of a connection (where each part came from, what is missing), over reconnects, with C96's trace and C28 |
| C158 | what each subscriber has read, whatever arrives | C156 for the goroutines (via C146_goroutines) and C146_in_order for what has been read; a prefix of a replay is a replay, and eviction requests do not matter |
| C159 | a client of both channels | invariant along the steps: what was read, plus the value on offer, is the filtered list of sends begun; at most one of the two channels is being offered a value; then C156 and a replay of a prefix |
| C160 | incomplete blocks and stray messages | invariant: pending batches exist only for hashes of the tree and of the incomplete blocks, so stray parts are only queued; an incomplete block is not emitted (C147); then the proofs of C44 and C86 with the weaker condition |
| C161 | a topic with incomplete blocks | what the dispatcher passes on is as in C160; then as C111 |
| C162 | arrays behind the slices of an update | invariant with a ghost map from arrays to the update they are filled for: every write puts at its place what belongs there, so writes of several goroutines do not disturb each other |
| C85 | answers of the ordering layer | `Marks`, and an invariant through the emit loop that the head is remembered |
| C78 | restarting after a block loses no later block | prefix invariant on the noted default offsets, provenance (C07), then C01; refutation by evaluation: cross-partition skew |
| C79 | two producers together lose no block | two `KP` states over one log; refutation: the first producer fails after the header |
| C80 | waiting blocks are bounded | refutation: unboundedly many orphans (induction on the number); partial: what is kept is announced, unfinished |

## Which code is modelled

| file | modelled | not modelled |
|------|----------|--------------|
| `delivery/types.go`, `errors.go` | all types, keys, Avro codec (`Model/Types`, `Model/Avro`) | timestamps |
| `delivery/producer.go` | everything (`Model/Producer`), regular expressions as an arbitrary function and, for C141-C143, a model of Go's package `regexp` (`Model/Regexp`: a part of its syntax; trusted to be faithful, see the file for what is left out; checked against cases of Go's own tests in `Checks/RegexpTests`) | metrics |
| `delivery/consumer.go` | `PendingBatch`, `MessageProcessor`: everything (`Model/Consumer`) | metrics, logs, the capacity of Go slices behind `key[a:b]` (taken equal to the length), `GetValue`/`Whitelist` plumbing without logic |
| `delivery/ordering.go` | everything (`Model/Ordering`), goroutines and channels (`Model/System`), the subscribers of the feeds (`Model/Subscribers`; `event.Feed` is trusted to behave as documented), `Close` and the quit poll (`Model/OmpClose`), the arrays behind the slices of a chain update (`Model/UpdateSlices`) | metrics, logs |
| `transports/websockets.go` | messages, producer, consumer, frames, subscription (`Model/Websocket`), the whole consumer over several connections (`Model/WebsocketSystem`), the server: subscriptions, feed, lock and producer (`Model/Streams`; the back-pressure sleep is a guard), the life of a consumer: `Start`, reconnecting, `Ready`, `Close` (`Model/WebsocketLife`), both together (`Model/WebsocketWhole`), the bytes of notifications and how they are read (`Model/JsonText`), the bytes of the subscription request and of its answer (`Model/Subscribe`; `rpc.Call` and `rpc.Response` are taken to have the members of JSON-RPC) | HTTP, the unsynchronised variable `sub` |
| `transports/kafka.go` | offsets, resumption strings, heartbeats, producer with replay cache, watcher, feed scan, dispatcher (`Model/Kafka`), partition goroutines (`Model/Warmup`), `Ready` and `Close` with all goroutines of `Start` (`Model/Lifecycle`; not: the drumline), the nested consumer of a reorg topic inside the dispatcher (`Model/Nested`), what is read of a partition, the sub-consumer of a reorg topic (`Model/Feed`), the watcher goroutines of `NewKafkaProducer` (`Model/Watch`), the whole consumer (`Model/KafkaSystem`), the options of the URL and the creation of topics (`Model/KafkaConfig`) | sarama and the brokers (arguments), how `net/url` cuts a URL, drumline, metrics |
| `transports/resolver.go` | mux producer and consumer, URL protocols (`Model/Mux`), making a mux producer (`Model/Resolve`) and a mux consumer, its waiter and answers (`Model/MuxConsumer`), `Ready` (`Model/MuxReady`) | subscriptions (they only pass on) |
| `transports/null.go` | what it answers in a mux consumer (`Model/MuxConsumer`) | subscriptions |
| `utils/kafka.go` | all: `NewTopicConsumer`, `Messages`, `Close`, the goroutines and the channel (`Model/TopicConsumer.lean`) | what Sarama does inside; the ignored error of `url.Parse` |
| `cmd/cardinal-streams-cat/main.go` | `main` up to the start of the consumer (`Model/Cat`) | flags, logs, the JSON printed, the wait and `Close` after the start |
| `transports/scram.go` | all (`Model/Scram`; the package `xdg/scram` is a parameter) | the hash functions |

## Trusted base

1. The Lean 4.33.0 kernel. No `sorry`, no `native_decide`, no `bv_decide`, no axiom of our own.
2. The axioms of Lean that the proofs use, listed per theorem below: at most `propext`, `Classical.choice`,
   `Quot.sound`.
3. The reading of the Go source. Every definition in `Model/` cites the lines it stands for; simplifications are stated in its
   comment. The code was not run.
4. The behaviour of libraries not in `/repo`, as modelled: `path`, `strings`, `strconv`, `math/big`, `sort`, `sync.WaitGroup`,
   golang-lru (`Model/Go`, `Model/Path`), hamba/avro (`Model/Avro`), `encoding/json`, `hexutil` of
   go-ethereum and the member names of the notification of cardinal-rpc, taken as in JSON-RPC (`Model/JsonText`),
   `types.Feed` as a FIFO into each subscriber's channel, `types.BytesToHash`. The eviction callback of golang-lru (the version of
   go.mod) is taken to run after the cache has been updated and its lock released; ordering.go:57-59 would otherwise deadlock.
5. Atomicity: a call into a `MessageProcessor`, a `KafkaProducer` or a `PendingBatch.Done` is one step. The comments of
   `Model/System`, `Model/Waiter` and `Spec/Kafka` say why or under what condition; C115 proves where accesses to shared maps
   exclude each other and where they do not, C116 when calls of `Done` that are not one step do as if they were.

## Where the code does not do what a property says

Each has a theorem `…_refuted…` with a concrete execution of the model, and a `_partial` theorem for the part that holds.

| id | what happens | code |
|----|--------------|------|
| C07 | the second copy of a sub-batch header is not recorded in the resumption | consumer.go:376 |
| C12 | keys below 33 bytes (65 for sub-batch messages), indices outside the count and negative counts panic | consumer.go:107-117, 287, 380 |
| C13 | a path beginning with '/' that matches no prefix loops for ever | consumer.go:158-172 |
| C15 | missing sub-batch messages are reported as ready | consumer.go:94-98 |
| C16 | empty values: a duplicate is counted twice; inline ones are dropped | consumer.go:129, 351 |
| C23 | a failed `AddBlock` leaves sub-batch ids registered | producer.go:105-122 |
| C27 | reorg numbers outside 32 bits are truncated | types.go:116-121 |
| C35 | a waiting block of weight zero panics the emit loop, and so do blocks left in the queue by an eviction | ordering.go:255-265 |
| C39 | siblings queued before their parent stay unconnected after a reorg, so a heavier fork is ignored | ordering.go:278-291 |
| C42 | a fork from `LastHash` is never adopted unless the block `LastHash` itself is delivered again | ordering.go:194-218 |
| C49 | an answer of the largest int64 counts as none | resolver.go:239-256 |
| C52 | a duplicate websocket batch discards what was merged and waits for ever | websockets.go:409-444 |
| C53 | after a reconnect a block that still waited for a sub-batch is not requested again | websockets.go:336, 442 |
| C54 | keys that are not UTF-8 change in JSON | websockets.go:50-58 |
| C61 | a ReorgComplete message on an ordinary topic makes the `WaitGroup` counter negative: panic | kafka.go:690 |
| C63 | a header key below 33 bytes on the topic panics every producer | kafka.go:291 |
| C65 | source names do not name the broker, so two brokers with a common topic mix up offsets | resolver.go:75-91 |
| C66 | `cardinal://` is stripped for producers and not for consumers | resolver.go:32, 61 |
| C67 | an empty partition blocks all others | kafka.go:592-597 |
| C68 | the entry of a new announcement is deleted by the sleep started for an earlier one | waiter.go:81-97 |
| C69 | a block added between the end of the stored blocks and `feed.Subscribe` is never sent | websockets.go:266-268 |
| C70 | a frame that does not parse makes the previous message be processed again | websockets.go:373-400 |
| C72 | a block naming one sub-batch id twice waits for ever if the sub-batch came first | websockets.go:425-438 |
| C84 | blocks handled before a reorg notification are ignored when delivered again on top of the announced block; subscribers stay there until a new heavier block comes | ordering.go:178, 241-244 |
| C85 | only the last block of a reorg is marked as finished; inner blocks that arrived before their parents stay "pending parent" and forks from them are not followed | ordering.go:246-276, 374-378 |
| C90 | the idle second can pass while a partition goroutine holds the message that made it ready | kafka.go:606-613, 705-716 |
| C91 | one value on an unbuffered channel: a second goroutine waiting for `Ready` hangs; an empty partition keeps everybody waiting | kafka.go:641-643, 744-749 |
| C92 | `Close` hangs while a partition is empty, panics if it comes before the partition goroutines have begun or twice at a time, and hangs the second time | kafka.go:582, 717-724, 756-759 |
| C94 | a websocket or null consumer in front of a Kafka consumer hides its answers | resolver.go:205-212, websockets.go:486-488 |
| C97 | `HandleReorg` is called by the reading goroutine while blocks go through a channel: a reorg overtakes the blocks before it, and subscribers may end on the abandoned block | websockets.go:407-408, ordering.go:62-100 |
| C100 | after the client has left the first goroutine still sends all stored blocks and blocks when the channel is full: both goroutines stay for ever; if that happens at `ready`, the producer and all other clients are blocked too | websockets.go:236-274, 280 |
| C101 | with a reorg threshold below five the early phase of a consumer without a last block never ends: every block with an unknown parent is sent as if it continued the chain | ordering.go:55, 188-192 |
| C102 | `break` leaves only the inner loop: `Start` returns without a subscription when the connection breaks early; a refused subscription makes `Start` wait for ever | websockets.go:346-379 |
| C104 | `Close` during an outage dereferences a nil connection; `Close` while a connection is being made leaves the new one open, and the goroutine goes on | websockets.go:326-333, 479-482 |
| C107 | the consumer of a reorg topic starts one message before the end of the topic: what was written before is passed over, and a finished reorg makes the WaitGroup negative: panic; if the topic does not exist the error of `Start` is dropped and the consumer hangs | kafka.go:555-569, 668-680, 690 |
| C109 | `Ready` of a muxed consumer: of two calls one waits for ever with a Kafka transport; the goroutine of a second Kafka transport waits for ever at `kc.ready <-` and does not get to `dl.Close()` | resolver.go:191-201, kafka.go:641-645 |
| C110 | `Close` of the ordering layer is not heard while blocks come less than 250 ms apart and gives up: the goroutine stays; a block that comes as the timer fires is lost. (No consumer calls it at all: `Close` of the Kafka, websocket and muxed consumers leaves the goroutine of the ordering layer running) | ordering.go:87-98, 365-371 |
| C111 | with two partitions, one of them slow, a consumer that received everything can come to rest off the heaviest block although the producer sent parents first (C39 through the whole consumer); topics are created with two partitions per broker unless told otherwise, so this is the usual set-up | kafka.go:189-191, :581-617, ordering.go:278-291 |
| C112 | the channel of a topic consumer and its client are never closed; a goroutine with a message for a full channel outlives Close; Close leaves the partition consumers after the first error open; an error of ConsumePartition leaves the goroutines of the earlier partitions | utils/kafka.go:21-59 |
| C113 | numbers in a Kafka URL are cut to the size of the field without a word (fetch.default, request.required.acks, durations); a URL that does not parse makes ParseKafkaURL dereference nil | kafka.go:69-92, :110-117 |
| C115 | the transports of a multiplexer process messages in their own goroutines with one `MessageProcessor`, whose maps have no lock; so do a nested reorg consumer that still runs, `WhyNotReady`, `ProducerCount`, and `HandleReorg` called by a websocket (Go ends the program when it notices concurrent map accesses) | resolver.go:94-106, consumer.go:254-268, 286-401, 409-415, kafka.go:33-46, 668-677, websockets.go:408 |
| C116 | two subscribers of the chain updates that both call `Done`, as they should, may close the same channel twice, which panics: reading `waitCh`, setting it to nil and closing are not protected | consumer.go:76-81, ordering.go:134-138, 274 |
| C117 | messages of a block whose header never arrives stay in `pendingMessages` for ever (neither eviction nor Reorg clears them), notes in `oldBlocks` stay until a Reorg message, and after a decode error during the replay of queued messages they are not deleted; a complete block from a websocket leaves the queued messages of the same block | consumer.go:276-281, 294-295, 254-268, 361-366, 404-407 |
| C118 | errors of `json.Unmarshal` are ignored and decoding stops at the first bad member, so a block with a negative weight or one of more than 256 bits is taken for an empty block with zero hash and handed on, and the consumer resumes from hash zero | websockets.go:390, 400, 408-450 |
| C118 | a notification that names a block, a sub-batch or a reorg and does not contain it (member missing or null) panics the consumer: the pointer is not checked | websockets.go:403-455 |
| C124 | a nil weight is dereferenced: a websocket block without weight that is not on top of the head, or a start with `LastHash` but no `LastWeight` followed by a block with unknown parent, panics the consumer | ordering.go:195,220,304,327; websockets.go:412 |
| C128 | a block that names itself or a descendant as its parent makes the ordering layer loop for ever when a heavier block comes on top of it; a websocket server can do this with three messages, since hashes are not checked | ordering.go:334-359 |
| C131 | after a restart, a fork block on the stored block's parent that arrives before that parent is queued and never examined again, since a lighter unconnected block does not look at its waiting children; the consumer stays on the stored block for ever, however heavy the fork grows | ordering.go:220-232; also 194-218 when the fork precedes the stored block |
| C132 | a resumption string for a time after the last message of a partition says -1, which is smaller than any rollback, so a consumer with a start hash reads the partition from its oldest message; without a start hash an offset below the rollback makes it start at the newest message, losing those since the time | kafka.go:519-523, 555-570 |
| C47 | a negative rollback (as `cmd/cardinal-streams-cat` passes) together with a resumption offset starts behind the recorded message | kafka.go:572 |
| C133 | if retention has dropped the message at the recorded offset less the rollback, the consumer starts at the recorded offset instead of the oldest one kept, so messages inside the rollback window that are still there are skipped | kafka.go:574-579 |
| C134 | a block announced after the block of its height was done and its minute is over (a late fork block) leaves a goroutine and two map entries for ever if it is never done | waiter.go:63-101 |
| C136 | blocks that come over a websocket are not filtered by the tracked prefixes (the list made for it is not used), so what a subscriber of a muxed consumer gets depends on which transport was first | resolver.go:62-66 |
| C137 | if redundant producers have different schemas and the one whose header came first crashes before the rest is sent, the block is never emitted although another producer sent all of it | consumer.go:271-401 |
| C138 | a resumption that is not one (no part of the form k=v) is accepted silently and the consumer starts as if it had none | kafka.go:478-480 |
| C140 | SPEC.md lets applications choose any prefixes, but a block counted under a prefix that is not a directory of its keys (`ab` for `abc`, or `a//`) is never emitted; a sub-batch with identifier zero and an empty inline value are lost | `delivery/consumer.go:152-173`, `:351-357` |
| C141 | `"^" + i` anchors only the first alternative: with the schema entry `a/\|b/` the key `x/b/y` is counted under `b/`, which is none of its directories, and the block never completes at any consumer. Entries that do not end in a slash (`state/thing` with key `state/thing1`) have the same effect, as has `^?b/`, which is taken to be anchored already | `delivery/producer.go:31-37` |
| C142 | The check for overlapping schema entries compares their texts with `strings.HasPrefix`; overlapping expressions such as `[^/]+/baz/` and `bar/` are accepted, and which entry a key goes to then depends on the random order of map iteration at start-up | `delivery/producer.go:25-30` |
| C143 | Tracked prefixes are searched for anywhere in the announced prefix, whereas schema entries are anchored: a consumer that tracks `state/` also tracks `oldstate/` | `delivery/consumer.go:344-349` |
| C144 | `regexp.MustCompile("*")` panics: cardinal-streams-cat cannot be used with any broker. Besides, `main.go`, `utils/kafka.go` and `waiter/waiter_test.go` import `cardinal-streams/...` without the `/v2` of `go.mod`, which requires no such module, and `main.go` passes `ResolveConsumer` eleven arguments where it takes six (read, not tried) | `cmd/cardinal-streams-cat/main.go:11-12,27,34`, `utils/kafka.go:5`, `waiter/waiter_test.go:9`, `go.mod:1`, `transports/resolver.go:52` |
| C146 | one subscriber that stops reading stops the handling of all blocks and the service of all other subscribers; a subscriber to blocks or waiters that stops reading keeps `ProcessMessage` from returning | `delivery/ordering.go:144-162,244,275`, `delivery/consumer.go:258-264,317,395` |
| C146 | a client that buffers its channel of updates can read the notification of a reorg before an update that was sent before it, and cannot tell that from an update sent after it (`C146_apart`); with unbuffered channels it can (`C146_together`) | `delivery/ordering.go:144-162,244,275` |
| C149 | a consumer restarted with a rollback (a number of messages) that does not reach back to the block at which a heavier fork leaves its own chain reads the whole fork and stays on its own branch for ever: `prepareReorg` never finds the common ancestor, and nothing is sent | ordering.go:194-233, 334-359; kafka.go:556-572 |
| C151 | a `Begin` that is refused keeps the conversation of an earlier `Begin`: later answers use the earlier credentials | scram.go:19-26 |
| C152 | `ResolveMuxProducer` failing at a later URL leaves the earlier producers running (heartbeats, ports); a retry that succeeds has a websocket producer nobody can reach, since the server's error is dropped | resolver.go:42-46, websockets.go:112-118 |
**C162** (`delivery/ordering.go:126-128,135`): `Added()` hands out the slice itself, and `Done` writes behind its end. If a subscriber appends to it while another one is in `Done`, the latter may call `Done` on what was appended and not on a removed block (`C162_needs_readers`); after a reorg followed by a queued block the array has such room (length 3, capacity 4).
**C160** (`delivery/consumer.go:107,404-407`): a part whose key ends after the hash of its block is kept quietly until a header of that block arrives, and panics if it comes after the header (`C160_needs_noHeader`). Stray parts are never discarded as long as no header of their block arrives (`delivery/consumer.go:404-407`).
**C159** (`delivery/ordering.go:244,275`): updates and reorgs go out on different channels, and nothing in a value says where it belongs in the order. With buffered channels a client can read a reorg before an update sent earlier and then cannot apply the next update (`C159_needs_unbuffered`). Only unbuffered channels keep the order (`C159_in_order`).
**C158** (`delivery/ordering.go`): after a reorg message the next `ChainUpdate` does not list the blocks that the reorg took back as removed. A subscriber to updates alone cannot apply it to the chain it holds (`C158_needs_reorgs`); it must also call `SubscribeReorg`, and the order between the two channels is then its own problem.
**C157** (`transports/websockets.go:439-443`): when a batch is complete at once, its entry in `pendingSubbatches` is deleted but an earlier incomplete block with the same hash stays in `batches`. The next sub-batch with that hash finds it, finds nothing pending, and hands it on as complete: subscribers can be told of a block with a sub-batch missing (`C157_needs_same_parts`). It takes a server that sends the hash first with and then without sub-batches on one connection.
**C156** (`delivery/ordering.go:177`): HandlePendingBatch stores a block in `pending` before it looks whether a block of that hash is finished. A second block with the hash of the head but another parent replaces the head there, and the next reorg is computed along the wrong parents: subscribers are told to remove one block and to add one whose parent they do not have (`C156_needs_hashes`).

## The project's tests on the model

`Checks/ProjectTests.lean` runs the cases of all six `_test.go` files of the project on the model, with the outcomes that these files ask
for, several map orders and forty shuffles each (`#guard`). These are tests that the model behaves like the code where the project says how
the code behaves; no theorem rests on them. One came out differently: `TestFailedReconstructPanic` (delivery/consumer_test.go:250-270) only
panics, as it should, if the header happens to be the first of the two topics in the map of the alternate block; otherwise the block is emitted
before the superfluous message arrives. The test passes or fails with Go's map order.

## Testing the theorems against wrong programs

`seeded/LOG.jsonl` has one line per attempt. An edit was made to a definition of the model in a copy of this tree; every proof that then failed
was replaced by `sorry`, until the copy built; the theorems that depended on `sorryAx` in the end are listed as failed. Lines with an empty
claim are edits that change no property (they are kept to show what the theorems tolerate).

## Axioms per theorem

(`#print axioms`; names without the namespace `Verif`.)

**none**: C128_round, C95_close

**propext**: C102_grant, C108_refuted, C109_refuted, C109_refuted_none, C109_refuted_second, C110_room, C138_total, C144_compiling, C151_again_refuted, C151_conversation, C151_fresh_partial, C69_refuted, C95_null_waiter

**propext, Classical.choice, Quot.sound**: C01_delivered, C01_delivered_total, C02_emitted_exact, C03_at_most_once, C04_order_independent, C05_blocks_independent, C05_own_messages, C06_no_untracked_data, C06_nothing_tracked, C07_content_recorded_partial, C07_messages_recorded_partial, C07_refuted, C08_range, C08_roundtrip, C09_kafka_restart, C09_resume, C100_drained_partial, C100_leak_refuted, C100_partial, C100_ready_partial, C100_short_partial, C100_stall_refuted, C101_chain_partial, C101_partial, C101_refuted, C101_resumed_partial, C101_starts_partial, C102_partial, C102_returns_partial, C103_assembler, C103_becomes, C103_once, C104_ends_partial, C104_partial, C104_refuted, C105_delivered, C106_all, C106_served, C107_alone_partial, C107_ends_partial, C107_partial, C107_refuted_late, C107_refuted_missing, C107_safe_partial, C108_earlier_partial, C108_goes_on, C108_partial, C10_dropped_stay_dropped, C110_last, C110_partial, C110_returns, C110_stays, C111_end, C111_head, C111_order_needed, C111_progress, C111_published, C112_all, C112_close, C112_order, C112_refuted, C112_refuted_client, C112_refuted_error, C112_refuted_range, C112_stopped, C113_alone, C113_defaults, C113_numbers, C113_refuted, C113_refuted_malformed, C113_words, C113_wraps, C114_all, C114_limit, C114_nothing_else, C114_one, C114_request, C114_succeeds, C116_end_partial, C116_iff, C116_no_panic_partial, C116_one_partial, C116_refuted, C116_states, C117_behind, C117_bound_partial, C117_decode_refuted, C117_dropped_refuted, C117_empty_partial, C117_merged_refuted, C117_one_place_partial, C117_orphans_refuted, C118_block_partial, C118_bytes, C118_connection_partial, C118_ends, C118_extra_member, C118_hollow_refuted, C118_model, C118_no_object, C118_note_extra, C118_other, C118_same_partial, C118_text_partial, C118_twice, C118_unreadable, C118_weight_refuted, C118_wrong_kind, C119_end, C119_head, C119_no_fault, C119_shallow, C11_reopens, C11_reorg, C120_end, C120_head, C120_one, C120_published, C121_end, C121_head, C121_published, C122_all, C122_forks, C122_no_endless, C122_rest, C122_served, C123_all, C123_served, C124_chain, C124_crash_refuted, C124_fresh, C124_runs_refuted, C124_text, C124_weights, C124_zero_partial, C125_grammar, C125_hex, C125_message, C125_names, C125_rfc, C125_strings, C125_unambiguous, C126_answer, C126_connection, C126_first, C126_not_answer, C126_request, C126_server, C126_unread, C126_waiting, C127_header, C127_message, C127_rooted, C127_rounds, C127_search, C128_circle, C128_ends, C128_heavier, C128_three, C129_always, C129_completes, C129_end, C129_ordering, C12_partial, C12_refuted, C130_calm, C130_end, C130_lives, C130_resumed, C131_aside, C131_end_partial, C131_head_partial, C131_heaviest_partial, C131_never_refuted, C131_no_fault, C131_refuted_before, C131_refuted_late, C132_few_partial, C132_from_time, C132_future, C132_refuted_future, C132_refuted_zero, C133_end_partial, C133_lives, C133_progress, C133_refuted_retention, C133_rest, C133_single_partial, C133_starts, C133_string, C134_bound_refuted, C134_nothing, C134_rest, C134_settles, C134_stays, C135_announced, C135_origin, C135_pending, C135_waiter, C136_always, C136_completes, C136_delivered, C136_end, C136_exact_partial, C136_filter_refuted, C136_processor, C137_arrive, C137_delivered, C137_end_to_end, C137_keys, C137_schemas_matter, C137_union, C138_accepted, C138_meaning, C138_nothing, C138_numbers, C139_calm, C139_end, C139_lives, C139_possible, C139_rest, C13_partial, C13_refuted, C140_delivered, C140_exact, C140_needs_dirs, C140_needs_id, C140_needs_tidy, C140_needs_value, C140_producer, C140_total, C141_alternation_refuted, C141_anchored, C141_delivered, C141_directory, C141_found, C141_grammar, C141_literal, C141_matches, C141_no_directory_refuted, C141_optional_anchor_refuted, C141_unambiguous, C141_wellFormed, C142_overlap_refuted, C142_redundant, C142_routes, C143_all, C143_anchored, C143_literal, C143_prefix_refuted, C143_some, C143_union, C144_dot_star, C144_never_refuted, C145_chain, C145_chain_no_fault, C145_end, C145_head, C145_no_fault, C146_across, C146_ahead, C146_all, C146_apart, C146_completes, C146_end, C146_goroutines, C146_in_order, C146_no_fault, C146_pace, C146_stalled, C146_stalled_caller, C146_together, C147_end, C147_head, C147_order, C147_when, C148_end, C148_kafka, C148_kafka_end, C148_kafka_progress, C148_lives, C148_partition, C148_partition_end, C148_stored, C149_end_partial, C149_partition_told, C149_refuted, C149_told, C14_total, C150_end, C150_head, C150_lives, C150_progress, C150_published, C150_stored, C152_again_refuted, C152_beats, C152_clean_partial, C152_clean_refuted, C152_failed, C152_made, C152_phantom_refuted, C152_producers, C152_protocol, C152_served_partial, C153_end, C153_exact, C153_head, C153_no_fault, C154_end, C154_head, C154_lives, C154_lives_end, C154_no_fault, C154_stored, C155_calls, C155_end, C155_published, C155_running, C155_websocket, C156_chain, C156_needs_hashes, C156_received, C157_kafka, C157_needs_same_parts, C157_websocket, C157_websocket_chain, C158_applies, C158_needs_reorgs, C158_received, C159_all, C159_applies, C159_in_order, C159_needs_unbuffered, C15_exact, C15_partial, C15_refuted, C160_chain, C160_chain_no_fault, C160_end, C160_head, C160_needs_noHeader, C160_no_fault, C160_total, C161_chain, C161_chain_progress, C161_end, C161_head, C161_progress, C162_all, C162_order, C162_progress, C162_unchanged, C16_refuted_duplicate, C16_refuted_inline, C16_subbatch_partial, C17_counts, C18_addBlock_exact, C19_addBlock_topics, C19_sendBatch_topic, C20_addBlock_errors, C20_addBlock_ok_iff, C21_sendBatch_deterministic, C21_sendBatch_exact, C22_sendBatch_histories, C22_sendBatch_iff, C22_sendBatch_refused, C23_partial, C23_refuted, C25_addBlock_keys, C25_sendBatch_keys, C26_batch_roundtrip, C26_int_roundtrip, C26_sub_roundtrip, C27_exact, C27_partial, C27_refuted, C28_continuous, C29_disjoint, C29_fork, C30_heavier, C31_heaviest, C32_once, C33_whitelist, C34_admitted, C34_descendants, C35_partial, C35_refuted_evicted, C35_refuted_zero, C36_handle, C36_reachable, C36_run, C37_any_length, C37_asked, C37_heaviest, C37_recent_needed, C38_chain, C38_complete, C38_window, C39_gaps_partial, C39_partial, C39_refuted, C39_tree_partial, C40_remembered, C40_repeat, C41_assembler, C41_ordering, C42_partial, C42_refuted, C43_pipeline, C43_prefix, C43_progress, C43_updates, C44_end_to_end, C44_no_fault, C45_C46_send, C45_C46_sub, C45_skip, C47_not_after, C47_resume, C49_least_partial, C49_none, C51_assembled, C52_partial, C52_refuted, C53_partial, C53_position_partial, C53_refuted, C53_request, C54_partial, C54_refuted, C54_stored_partial, C55_hash, C55_notFound, C55_number, C56_closed_once, C57_hash, C57_number, C57_wakes, C58_count, C59_timestamp, C61_system, C65_refuted, C65_timestamps_partial, C66_brokers, C66_partial, C66_refuted, C67_progress, C67_refuted, C68_partial, C68_refuted, C70_partial, C70_refuted, C71_subbatches, C72_refuted, C73_refuted, C74_partial, C75_partial, C75_refuted, C76_order_partial, C76_overtaken_partial, C76_refuted, C77_refuted, C78_refuted, C78_restart_partial, C79_first_partial, C79_refuted, C79_sends_partial, C80_refuted, C80_waiting_partial, C81_latest, C82_bounded, C82_not_assembled, C82_others_at_most_once, C82_sent, C83_dropped, C83_held, C84_fresh_partial, C84_reconnected_partial, C84_refuted, C84_remembered_partial, C85_answers_partial, C85_head_partial, C85_refuted, C85_refuted_emitted, C86_any_length, C86_end, C86_head, C86_no_fault, C87_delivered, C87_progress, C87_published, C88_delivered, C88_progress, C88_published, C89_any_length, C89_end, C89_head, C89_progress, C89_published, C90_refuted, C91_one_partial, C91_partial, C91_refuted_empty, C91_refuted_two, C92_refuted_again, C92_refuted_cold, C92_refuted_early, C92_refuted_twice, C93_distinct, C93_topic, C94_asked_partial, C94_refuted, C94_told, C94_why_partial, C95_kinds, C95_resolve, C96_message, C96_notified, C97_partial, C97_refuted

**propext, Quot.sound**: C102_refused, C102_refuted, C104_bound_partial, C104_panics, C104_survives, C107_refuted_begin, C109_all, C109_ends, C109_later, C109_partial, C109_sound, C110_refuted_busy, C110_refuted_lost, C112_ends, C112_made, C112_made_only, C112_refuted_made, C115_iff, C115_kafka_websocket_refuted, C115_one_transport, C115_pings_refuted, C115_reorg_refuted, C115_two_dispatchers_refuted, C115_two_websockets_refuted, C115_waiter, C115_waiter_ends, C115_why_ordering_refuted, C115_why_refuted, C151_panics, C153_transports, C154_exact, C154_transports, C162_needs_readers, C24_accepted, C24_overlap_rejected, C25_any_length, C25_keys_injective, C25_keys_recovered, C37_fits_tracked, C39_covers_parentsFirst, C45_purged, C47_negative, C47_offsets, C48_all_called, C48_total, C49_refuted, C50_count, C50_start, C60_sources, C61_partial, C61_refuted, C62_latest, C63_exact, C63_partial, C63_refuted, C64_reorg, C67_all_partial, C67_prefix, C69_partial, C73_partial, C74_progress, C74_refuted, C77_short_partial, C77_window_partial, C90_partial, C92_partial, C92_safe_partial, C92_waiting, C95_waiter, C98_bounded, C98_exclusive, C98_no_panic, C99_live, C99_stored
