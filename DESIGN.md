# Push-CDN formal model: design

Target: EspressoSystems/Push-CDN (Rust) at the commit in `/repo`. The code is read as text and
modelled by hand in Lean 4; nothing is extracted from or executed against the Rust code.

## 1. Shape of the model

* Rust `HashMap`/`HashSet` are modelled by association lists / lists with a proof of key
  uniqueness (`Verif.AMap`, `Verif.FSet`). The list order stands for the (arbitrary) hash iteration
  order: a theorem that holds for all lists holds for every iteration order. Results are compared by
  lookups, never by list order.
* Every `Connections` method runs under one `RwLock` guard in the code, so each method call is one
  atomic step. An execution of all broker tasks is an arbitrary finite list of such steps; an
  invariant over all lists of steps covers every schedule of the tasks.
* Handlers that do several locked calls in a row (`handle_user_connection`, sends that fail, ...)
  are modelled as several steps, so that races between them are visible in the model.
* Bytes are `UInt8`. Rust `u32`/`u64` arithmetic that can wrap or panic is modelled
  explicitly (wrapping for release builds), Rust `?`/`bail!` error exits are explicit `Except`/
  `Option` results.
* External components are parameters or small models of their documented behaviour;
  each is listed in section 4.

Property theorems are in `Verif/Props/*.lean`, apart from model definitions (`Verif/Model/*.lean`)
and helper lemmas (`Verif/Lemmas/*.lean` or local). A theorem named `Cnn_...` belongs to property
`Cnn` of `properties.jsonl`; `MANIFEST.json` lists them. Beside the property theorems there are
concrete cases (`example`) meeting their hypotheses. A property that is false of the code is kept in
`properties.jsonl` as a user would state it; then `Cnn_false` refutes it with a witness execution, and
`Cnn_..._partial` is the strongest restricted statement proved.

## 2. Modules

| Lean module | Code | Properties |
|---|---|---|
| `Model/VersionedMap` | `cdn-broker/src/connections/versioned_map.rs` | C01-C06 |
| `Model/RelationalMap` | `cdn-broker/src/connections/broadcast/relational_map.rs` | C07 |
| `Model/Connections` | `cdn-broker/src/connections/mod.rs`, `broadcast/mod.rs`, `direct/mod.rs`; gauges and task aborts as recorded effects | C08-C11, C67, C21, C22 |
| `Model/Topic` | `cdn-proto/src/def.rs` (`prune`) | C16 |
| `Model/Message` | the message type of `cdn-proto/src/message.rs` | |
| `Model/Broker` | receive loops, senders, sync functions in `cdn-broker/src/tasks/{user,broker}` | C12, C13, C15, C17, C119 |
| `Model/Network` | several brokers joined by FIFO links | C14, C18-C20, C106 |
| `Model/UserSync` | user sync in a mesh | C23, C24 |
| `Model/Mesh` | brokers whose links come and go: connection set-up and loss between brokers (`tasks/broker/handler.rs`), sync tasks read, send and fail in separate steps (`tasks/broker/{sync,sender}.rs`), brokers that crash and are started again with empty tables | C71-C75, C85, C86, C120-C129 |
| `Model/MeshTime` | the same with a clock: the ten-second loop of `run_sync_task` (`tasks/broker/sync.rs:127-144`), and bounds for the full sync of a new link, for sending and for handling | C98, C99, C100, C128, C129 |
| `Model/Sessions` | connection handlers, receive tasks, failed sends of one broker as interleaved steps | C49, C52, C53, C64-C66, C70, C89 |
| `Model/Realm` | authentication flows, store, sessions and routing of any number of brokers put together | C101, C102 |
| `Model/Meter` | the byte gauges (`connection/metrics.rs`, `connection/protocols/mod.rs`) over the connections of `Model/Frame` | C104 |
| `Model/Connect` | `connect` and `finalize` of `connection/protocols/{tcp,tcp_tls,quic}.rs`: which calls in which order, and how long they take | C103 |
| `Model/Whitelist` | `tasks/broker/whitelist.rs` | C44 |
| `Model/Ident` | broker identifiers and the rule who dials (`heartbeat.rs`) | C42, C43 |
| `Model/Frame` | framing, sender and receiver task, soft close of `connection/protocols/mod.rs` | C25-C27, C50, C69, C109 |
| `Model/Reading` | `cdn-client/src/lib.rs` (`receive_message`) with the receiving half of `connection/protocols/mod.rs` | C108 |
| `Model/Pool` | `connection/limiter/{mod,pool}.rs` | C28, C29, C107 |
| `Model/Codec` | `Message::serialize`, `Message::deserialize` down to bytes | C30, C31, C69 |
| `Model/Discovery` | `discovery/{embedded,redis}.rs` | C32, C33, C39-C41, C55-C58, C61, C83, C105 |
| `Model/Choosing` | `get_with_least_connections` of both backends, command by command, with other processes in between | C110 |
| `Model/Linking` | the sync tasks of a mesh, connection by connection: each end registers in its own time, lookup and send are two steps, restarts | C73, C74, C75, C86, C112 |
| `Model/Updating` | `set_whitelist` of SQLite called by several processes, statement by statement | C113 |
| `Model/Rng` | `DeterministicRng` (`crypto/rng.rs`) | C114 |
| `Model/Churn` | `Model/Linking` and `Model/Network` side by side over the same tables, in any interleaving | C115-C118 |
| `Model/Checking` | `check_whitelist` of both backends, command by command, with other processes in between | C111 |
| `Model/Auth`, `Model/AuthRun`, `Model/AuthWorld` | `connection/auth/{user,marshal,broker}.rs`, `crypto/signature.rs`; two parties; many processes and one store | C34-C38, C60, C62 |
| `Model/Handshake` | handshake between brokers (`tasks/broker/handler.rs`) | C37, C63 |
| `Model/Heartbeat` | `tasks/broker/heartbeat.rs` with its timeouts and sleeps, any number of brokers on one store | C78, C79 |
| `Props/EndToEnd` | `Model/Network` together with `Model/Codec` | C80, C81 |
| `Model/Memory` | `connection/protocols/memory.rs`: `connect`, `bind`, `accept`, drop of a listener | C76, C77 |
| `Model/Backlog` | the way of messages through one broker and when their memory comes free: `connection/protocols/mod.rs`, `tasks/{user,broker}/{handler,sender}.rs`, `connection/limiter` together | C82 |
| `Model/Transfer` | how long reading and writing a message may take: sender and receiver task of `connection/protocols/mod.rs` with their timeouts, buffers and network speed | C90 |
| `Model/Failover` | a client's reconnection (`cdn-client/src/lib.rs:79-124, 204-249`) with its timeout and pauses, the marshal's choice among the brokers listed in the store, expiry of entries, heartbeats | C91 |
| `Model/Trust` | `crypto/tls.rs`, who is accepted over which protocol with which authority, what a marshal or broker presents; an adversary that makes and presents certificates | C92-C94 |
| `Model/Startup` | `Broker::new` as far as endpoints are concerned; brokers started and stopped on several machines | C95 |
| `Model/Latency` | `metrics.rs` `running_latency_calculator`, the latency histogram | C96 |
| `Model/Process` | `Broker::start`, `Marshal::start`, the listener tasks, `handle_connection` of the marshal, with timeouts | C84 |
| `Model/Eviction` | the whitelist in `auth/marshal.rs`, permits, `auth/broker.rs`, `tasks/broker/whitelist.rs`, with timeouts and sleeps | C88 |
| `Model/Client` | `cdn-client/src/lib.rs` | C45-C48, C51, C54, C59, C68 |

## 3. Method per property

| id | proof |
|---|---|
| C01-C05 | induction over operation lists; `merge` as a case table per key, independent of iteration order |
| C06 | two-sided exchange; false in a corner (section 5); exact condition |
| C07 | invariant and refinement to a set of pairs |
| C08-C11, C67 | inductive invariants over arbitrary operation lists; C67 by a simulation that deletes all other users |
| C12, C13, C15, C17 | the loop's step function, for all states and all interference at every await |
| C14, C18-C20, C106 | invariants over executions of a network of brokers: delivered ++ in flight = sent; for C20 with changing tables: what was delivered, then what is in the queue, is a subsequence of what was published |
| C16 | list induction |
| C21, C22 | receiver's entry is one of the sender's past entries and the newest wins |
| C23, C24 | induction over the history of changes; C24 false |
| C71, C72 | C21's invariant per pair of brokers with every place a sync may be (task, queue, owed initial sync); subscriptions followed through the history; composition with C18 |
| C73, C74 | counterexample runs; exact condition for a drop; simulation of the mesh by the simpler model of C23 while a user's changes come in turn; connection by connection: an invariant (`LinkingStays`), and a map from the connection-level mesh to the link-level one that commutes with every step once connections are stable (`LinkingTurn`); for users who connect once, C120's third invariant |
| C75 | composition of C74's partial theorem with C19 |
| C85 | counterexample run; invariant: whoever believes in the lost connection and is linked with the restarted broker has told it, will tell it, or will be told |
| C86 | invariant over schedules: no entry anywhere names the broker |
| C87 | counterexample run of client and broker; invariant of the client: what it recorded is what it told the present connection; run of the broker: the table follows what was handled; composition of the two |
| C78, C79 | timed runs; invariant bounding where the loop is by the number of rounds since the last write; composition with C40 and C43 |
| C76, C77 | invariant: what is in each channel = what was sent and not yet taken; exact condition for pairing; a measure for progress; counterexample runs and an invariant for the call that never returns |
| C25-C27, C50 | one invariant linking the bytes written, on the wire, read and handed over |
| C28, C29 | inductive invariant of the semaphore; order of service; a measure for progress |
| C30, C31, C69 | builder invariant (what each pointer leads to) and cost bound of the reader; a Hoare-style rule for the reader on arbitrary bytes; composition with C25 |
| C32, C33, C39-C41, C55-C58, C61, C83 | histories of atomic store steps; invariants and counterexamples |
| C34-C38, C60, C62, C63 | traces of effects of each flow; two-party runs; histories of many processes |
| C42, C43 | lists of characters; total order |
| C44 | fold over the users with interference at each await |
| C45-C48, C51, C54, C59, C68 | interleavings of task points with lock ownership read off the points |
| C90 | timed runs; invariants relate the bytes left to the time since the limit began to run; measure for the work left in a millisecond |
| C91 | timed runs; invariant: latest start of an attempt that can still fail, and of the one after it; runs of any length for what does not hold |
| C92-C94 | invariant over runs with an adversary: every certificate the production key has signed is for that key; induction over the path of certificates |
| C95 | invariant over starts and stops (one broker per machine); replacing a text that occurs is injective, by lengths and induction |
| C96 | counting what was released against sum, count and what is under way |
| C97 | composition: the tables a history produces are in sync (C71, C72, C74), over such tables C81; termination of the delivery by C14's measure |
| C98 | invariant on deadlines in a timed mesh (nothing overdue, nothing due later than the bounds allow); an announcement on its way keeps its deadline from sync to channel to receiver; a schedule of syncs after which a whole interval can pass |
| C99 | the same deadlines, followed for the announcement of one user's change from the table to sync, channel and receiver, together with C74's invariant; hence changes far enough apart are in turn; a concrete run for the bound |
| C100 | C99 for all users, C98 for the topics wanted in the end (which have been wanted since the last change, since syncs only take subscriptions away), composed with C81 through the lemmas of C97; two concrete histories, one with quiet time short by a millisecond |
| C101 | composition of C62 (admission), the sessions' invariant and routing: invariant that frames under way were written on a user's session or are syncs, that subscriptions were asked for by the user, and that sessions began with an admission |
| C102 | an issuance found in the trace of the store is located in the history of the processes; nothing between it and the redemption redeems it; a marshal issues once; induction assigns processes to sessions |
| C103 | case analysis over all answers of resolver, sockets and handshakes; witnesses for the negations |
| C104 | the invariant of C25 with the list of messages read exposed; sums over connections |
| C105 | the minimality of C39 combined with counting arrivals and departures since the reports; induction over a burst; loops of the store for the counterexamples |
| C106 | a potential: copies under way plus copies handed over never grow except by publications, with one weight per broker and user (broadcasts) or per message (direct); counting of events for the client |
| C107 | the pool's invariant at the moment everything asked for earlier is over; induction over those who wait, with times; families of schedules for the bounds |
| C108 | invariant of the queue of each connection (taken ++ waiting = arrived), refinement of `Model/Client`; an invariant of connections nobody has any more for the counterexample |
| C109 | invariants of the link once a task has ended; induction over schedules for the acknowledgement |
| C110 | induction over the brokers still to be asked about; every number read is that of the last heartbeat in the history up to that command; counterexample schedule |
| C111 | what the whitelist can be after the steps of others; comparison with an undisturbed call at either moment; counterexamples |
| C112 | invariant over all schedules of the connection-level mesh (`Lemmas/Linking`); constructed schedule that settles; composition with the network model; counterexamples |
| C113 | invariant over all interleavings of the statements; counterexample |
| C114 | induction over the calls; digits to base 256 |
| C115 | number of copies received or still on their way to the user is an invariant of every step; an announced topic stays announced while somebody is subscribed to it |
| C116 | the same; every entry about the user, in any table, queue or sync, stays the one entry that all had |
| C117 | what the user has received, followed by what waits in the one or two receive loops between, is what was published, at every step |
| C118 | provenance: every pending send carries its reason (the schedule up to the moment of routing); the potential of C106 and the work measure of C14 over the joint steps, with connections of a broker to itself excluded by an invariant of the mesh |
| C119 | induction over the frames of the receive loop: being connected at the end is carried backwards over calls that do not register the user, and with it the connection, the subscriptions and the success of the send |
| C120, C121 | invariant about everybody's entry of the user and all copies under way, in two phases, before and after the user connects again; coverage of every link of the new broker after that; a third phase, with a smaller invariant, in which the old broker is back; counterexamples; conservation of copies (as C19, for one recipient) for messages |
| C122 | C120's third invariant from the user's first connection on; conservation of copies (as C19, for one recipient); counterexample run |
| C123 | invariant of every table: a tombstone is marked for announcing, and stems from a call since the last sync; `diff` clears all of them |
| C124 | refuted by a schedule of three brokers (with the unreachable user as consequence); for users who stay, the invariant of C73/C74 entered from the state before the join |
| C125 (and C74 by epochs) | at the boundary of phases the invariant of `MeshBack` (user stays, links change) and that of `MeshTurn` (user changes, links stable) imply each other, so they alternate for any number of epochs; composed with conservation |
| C126 | the invariant of `MeshFailover` (own broker crashed) is entered from that of `MeshBack` and left into it for the new broker, so crashes join the alternation of C125; induction over the parts; that syncs alone settle is by construction of a schedule, as in C71 |
| C127 | C126's one place per user, C71's exact interest, and the weight of a broadcast for a user connected to at most one broker (no assumption about third brokers); conservation |
| C128 | timed mesh: C126's invariant says what is still to be told; a second invariant bounds when each item (unannounced change, sync under way, frame in the queue) is done, for one pair of brokers and under any other failures |
| C129 | C126's invariant through a timed run, C98 for the topic at the other broker, C127's weight of a broadcast; conservation |
| C84 | timed runs; counting of connections by age and key |
| C88 | timed runs; invariant: the latest time at which a login that began before the removal can still get each of its steps done, and the latest time of the pass after that |
| C82 | invariant of the stuck states; lexicographic measure for coming to rest |
| C49, C52, C53, C64-C66, C70, C89 | interleavings of handler steps; counterexample runs and partial theorems |

## 4. Trusted base

### 4.1 What is trusted

* Lean 4.33.0's kernel. `lake build` needs nothing else; there is no `sorry`, no `native_decide`, no
  `bv_decide`, no added axiom. `decide +kernel` is used for concrete examples and witnesses only.
* The three standard axioms `propext`, `Quot.sound`, `Classical.choice`; which theorem uses which is listed at
  the end of this file.
* The reading of the Rust code: every definition cites the lines it models.
* The behaviour assumed of components outside of `/repo`, next.

### 4.2 Assumed behaviour of what is not in `/repo`

| component | assumption | used by |
|---|---|---|
| `std::collections::HashMap`, `HashSet` | maps and sets with arbitrary iteration order | all |
| `parking_lot::RwLock` | a guarded method is atomic | Connections and above |
| tokio tasks | any interleaving at awaits and between lock accesses (multi-threaded runtime); `abort` prevents a suspended task from being resumed and does not interrupt a running one | Sessions, Client |
| tokio `RwLock`, `Semaphore(1)`, `Mutex` in the client | mutual exclusion; a free lock is granted to some waiter (tokio: the first) | Client |
| tokio `RwLock` of the in-memory transport | waiters are served in order of arrival; a writer waits for all readers to leave | Memory |
| async-channel | FIFO, unbounded (or bounded by its capacity), several receivers compete for each element; closing is seen by the other side; a `recv` that is dropped while it waits has taken nothing, and `recv` reports the end only when the channel is empty; closing, or dropping the receiver, leaves what is in the channel there until the channel itself is dropped | Memory, Frame, Backlog |
| tokio `Semaphore` of the memory pool | fair: queue of waiters, partial assignment to the front, released permits go to the queue first | Pool |
| operating system | `accept` fails when the process has no descriptor left, and may fail for other reasons | Process |
| tokio oneshot channel | delivers the value; a dropped sender is seen | Frame |
| TCP, TLS, QUIC, in-memory stream | reliable and in order up to a cut; after the cut nothing | Frame |
| `rustls` checking a certificate, `rcgen` making one | as written in `verify` and `generateCert`: the name, not an authority's, a path of signatures to the trusted certificate; signatures and certificates are symbols, a handshake needs the key | Trust |
| signature scheme (BLS over BN254) | none for safety theorems except where stated as hypothesis (verification of an honest signature succeeds in C36, C63; no assumption of unforgeability: C62 concludes that a verifying signature was presented) | Auth |
| clock | any value at each reading; bounded differences only as stated hypotheses | Auth, Discovery |
| random permit numbers | any value | Discovery |
| SQLite via sqlx | each statement is atomic; `INSERT OR REPLACE`, `DELETE ... RETURNING`, `SELECT` with expiry conditions; at most 32766 bound variables; primary key violations fail the statement | Discovery |
| Redis (KeyDB with `EXPIREMEMBER`) | each command or atomic pipeline is atomic; `SET ... EX`, `GETDEL`, `SMEMBERS`, set members that expire | Discovery |
| rkyv (sync messages) | an arbitrary decoding function; for the sync properties: what was encoded is decoded | Broker, UserSync |
| `capnp` 0.20.6 | segment table, builder arena with an arbitrary allocation policy, far pointers with landing pads, `WirePointer` layout, bounds checks and traversal limit of the reader; written down from the published encoding and knowledge of the crate, whose source is not available here; release build (debug assertions off) | Codec |
| `to_socket_addrs`, sockets, tokio `timeout` | any answer after any time; `to_socket_addrs` returns only when the resolver has answered and does not yield to the runtime; an IPv4 socket (TCP, or quinn's endpoint bound to `0.0.0.0`) refuses an IPv6 address at once; a `timeout` lets a call end that is ready when its time is up | Connect |
| Rust strings | `String` order and UTF-8; Lean's `String` and its verified UTF-8 functions | Ident, Codec |

### 4.3 Code that is not modelled

* Configuration, command line parsing, logging, metrics export (warp server), the
  binaries and examples, benchmarks, tests and test harnesses (`cdn-broker/src/tests`, `cdn-broker/benches`).
* Key generation (what a scheme does with `DeterministicRng`), validity periods of certificates, of the transport set-up in
  `connection/protocols/{tcp,tcp_tls,quic}.rs` (connect, bind, accept, finalize) only the stream they yield, whom it is made to (C92), and which
  address is connected to and how long that takes (C103); `bind` and socket options are not. That much is modelled. (`memory.rs` is in `Model/Memory`.)
* `Marshal::new`, and of `Broker::new` all but the endpoints (`start` is in `Model/Process`).
* Durations, except for the expiry of permits, heartbeats and timestamps, and the timeouts and sleeps of the heartbeat
  loop (C78, C79), of accepting connections (C84), of moving one message (C90), of the client's reconnection (C91), of the sync interval (C98, C99, C100, C128, C129) and of logging in and checking the whitelist (C88): elsewhere a timeout is "may stop here" or a step that
  may happen at any time.
* Cargo features: `strong-consistency` (on by default) only adds syncs after a user connects; syncs may start at any time in the models,
  so both settings are covered. `global-permits` (off by default) is a parameter of the stores (`Model/Discovery`); `Model/Choosing` is
  without it. `metrics` and the choice of runtime are not modelled.
* Out-of-memory and stack overflow; panics other than arithmetic overflow (which wraps in release builds), failed
  conversions and poisoned state.
* Debug builds: where a debug build would panic on overflow, the model wraps. This concerns versions (2^64
  modifications), the freshness check of a timestamp when the clock is below five seconds, and lists of 2^29 elements.

### 4.4 Simplifications inside the model

* In `Model/AuthRun`, `Model/AuthWorld`, `Model/Heartbeat` and `Model/Eviction` the calls `get_with_least_connections` and `check_whitelist` are one
  step each. `Model/Choosing` and `Model/Checking` split them into their commands.
* `Model/Churn`: frames that change tables (subscriptions, syncs) and removals after failed sends take effect at the labels of
  `Model/Linking`, not where `Model/Network` handles the frame or the failure; so they may take effect at any time. A message
  counts as received once a connection of the user has accepted it.
* `Model/Churn`: frames do not say on which connection they were sent. Once the connection of a receive loop has changed, the
  model lets any frame or send of that loop be lost, also those on the new connection.
* A connection and its abort handle are one token.
* Errors carry no text, except the texts that are sent to the peer.
* The broker model treats tables between two awaits as changed by an arbitrary list of operations. That is more than
  the code can do; theorems hold for all of it. `Sessions` then restricts to what the handlers do.
* The network model (C14, C18-C20) replaces tables by arbitrary ones at any time (C14, C20's second part) or
  fixes them (C18-C20); the syncs that make tables agree are C21-C24. Between two brokers, and between a broker and a user,
  there is one queue for the whole run, also when the connection is replaced meanwhile.
* User sync (C23, C24): a full mesh with links up all the time; full syncs on new links are empty there.
* Heartbeats (C78, C79): one clock for all; a call to the store that failed or timed out has no effect afterwards; the
  runtime is at most a given time late.
* In-memory transport: `accept` is one step; its failure after another `bind` of the same endpoint is left out.
* The mesh (C71-C75, C85, C86, C120-C129): both ends of a link register each other in one step (the races inside a handler are in `Sessions`);
  removing a broker discards what it sent and was not handled; messages between users are left out (C72, C75 add them
  afterwards, with the tables at rest). C75 needs the links to be up before the first user connects. A crash and the start of
  the same broker are one step: its tables, its sync tasks and what others had sent to it are gone; what it had sent and was
  not handled yet is still handled until the other side notices. `Model/Linking` drops the first two: there each end registers
  on its own, a send looks its connection up first, and frames on a connection that is no longer used are still handled
  (C112, C86, and the theorems `…_connection_level…` of C73, C74, C75).
* The mesh with a clock (C98-C100, C128, C129): one clock for all brokers; that a started sync is sent, that an arrived frame is handled, and
  that the full topic sync for a new link is started, within given times, is assumed. No time is assumed for the start of the full user
  sync; C99, C100 and C128 count from when it has been started (handler.rs does it right after the full topic sync).
* Everything together (C101, C102): a frame sent to another broker arrives on any session that broker has with the sender (in the
  code: at the other end of the same connection), so a session between brokers is taken to be with the broker it was told; that is
  what C37 and C93 are about. A broker's own frames are syncs. Hooks let everything pass unchanged, as in the shipped binaries.
  Sends may fail at any time.
* Client and broker (C87): the two models are run side by side and joined by hypotheses (`Matched`): a connection of the
  client is a session of the broker, and what the broker handled is what the client sent (C69, C30). A dropped future of
  `subscribe` has sent nothing: `async_channel` pushes the message when it is polled, and the recording follows without an await.
* One broker's memory (C82): logging in is one message; destinations and which connections a message makes the broker drop
  are arbitrary; removing and dropping a connection are one step; memory of messages nobody holds comes free in a step of its own;
  messages made by the broker itself need no pool memory and are left out.
* Process life (C84): only descriptors of incoming connections count; a replaced connection is closed at once; how long a
  `soft_close` takes is a parameter (the code does not limit it).
* Whitelist removal (C88): one clock for all; the runtime is at most a given time late and a pass of the whitelist task takes at
  most a given time (the code does not limit it); a call to the store that timed out has no effect afterwards; a user is
  registered without an await after the permit was found; signatures and other reasons for a login to fail are left out (a login
  may end at any time).
* Moving messages (C90): the network carries a fixed number of bytes per millisecond; bytes are counted, not told apart; `flush` does
  nothing; the receiver's channel has room; the connection itself never fails.
* Losing a broker (C91): good and bad periods; in a good one everybody who is up answers within a given time and nothing else
  fails; which broker a marshal names is arbitrary among those listed; asking a marshal is one exchange, logging in at the broker
  another.
* The client's connection is a token that may fail at any time; C46 speaks about the topics it authenticates with.
* Redis and SQLite connection failures are errors without effect.

## 5. Findings

Behaviour of the code that differs from what a user would expect, each with a machine-checked witness or theorem.

**Broker, connections and tasks**

* (C49) When a user reconnects, the old receive loop's failure, or a failed send that was looked up before, removes
  the *new* connection: removal goes by key, not by connection.
* (C52) The receive task is spawned before the user is registered. A `Subscribe` handled in between is erased by the
  registration (`add_user` starts from the topics of the authentication).
* (C53) In the same way a topic sync that arrives before `add_broker` is dropped.
* (C64) If the receive loop fails before the registration, the user is registered afterwards and stays listed as
  connected although nobody reads from the connection.
* (C65, C66) A loop that was aborted while running, or whose user was just removed, may still subscribe the user:
  the topic is then announced to other brokers although nobody is subscribed to it.
* (C11) Hence "no subscriptions survive a disconnect" needs that subscribe calls are made for connected users only.
* (C24) User locations need not converge: with two brokers nine steps suffice for them to disagree for ever. `diff`
  forgets removals, so versions restart at 1, and a late sync of an old location can win.
* (C99) How long is safe: a user who lets more than a sync interval plus a send and a delivery pass between any two of their
  connects and disconnects is always found again; a millisecond less and the broker they moved to may throw them out. The
  elastic client does not wait (it reconnects two seconds after a failure, C91), so moving within ten seconds is not covered.
* (C73) Linking two brokers disconnects users. The initial user sync of a broker lists everything it knows, including the
  receiver's own users; at equal versions the greater identity wins, and `apply_user_sync` removes every user of a taken
  entry without looking at which broker it names. So a user who connects while a link is being set up may be dropped, and
  when a link fails and comes back all users of the lesser broker the greater one knew of are. Users of the
  greatest broker are safe, and so are users of any broker until a link of theirs to a greater one comes up
  (`C73_lesser_links_partial`).
* (C74) After a third broker is lost, two brokers whose own link never failed may disagree for ever on a user: one of
  them keeps forwarding to the lost broker, since versions restart at 1 when the removal has been announced.
* (C74) Each broker's partial user syncs run as separate tasks and may be sent in the wrong order; then a neighbour
  forgets a user who is connected. Topic syncs withstand both (C71).
* (C87) After a subscription sent right after connecting was lost (C52), the client and the broker disagree until the next
  reconnection, although `subscribe` returned Ok. Repeating the call with the same topics sends an empty list
  (cdn-client/src/lib.rs:388-391), which `prune` refuses (cdn-proto/src/def.rs:44-45), so the broker ends the connection
  (C48). Only the reconnection that follows, at the client's next use, authenticates with the recorded topics and repairs it.
  C66's late frames of an old connection lead to the same disagreement.
* (C85) A restarted broker that is told of its former users by another broker's initial sync withdraws them, which is right. But
  the receiver of the withdrawal keeps no trace of it, so an initial sync of a third broker that is still on its way puts the
  old entry back: from then on messages for the user are sent to a broker where they are not, although everybody is linked
  and nothing is left to be said, until the user connects again.
* (C06) Conflicting updates resolve differently on both sides if the greater identity removes what the lesser one
  rewrites.
* A broker that receives a broadcast from another broker routes by the topics as received, unpruned.
* `remove_broker` leaves the users of that broker in the direct map; messages for them are dropped with a failed
  lookup until a sync corrects it.
* A message hook lives as long as its connection: a limit that a hook keeps per user starts afresh when the user connects again
  (C89; user/handler.rs:100-102 clones the broker's hook for each connection).

* (C96) `running_latency` may be far off: the calculator reads sum and count one after the other, so a message released in between
  counts in one round and adds its latency in the next (with one message per round the gauge shows 0, then twice the latency);
  and when no messages arrive the gauge keeps showing the last average.
* `Broker::new` needs `local_ip()` to succeed even if no endpoint mentions `local_ip`, although the error says "and none was
  supplied". (C95) A configuration whose advertised endpoints do not mention it gives every broker the same identity; nothing
  notices.
* `bind` accepts IPv6 endpoints, but `connect` of all protocols only uses IPv4 sockets: a broker can be started, listed and named to
  users at an endpoint nobody can connect to.

**Client**

* (C45) After `close()` a `receive_message` may hang for ever instead of failing: an unrecorded reconnection task keeps
  retrying while it holds the lock the call waits for.
* (C48) Subscribing to topics all of which are subscribed already, or unsubscribing from topics none of which is, sends
  an empty list; the broker then disconnects the user ("no valid topics").
* (C51) A failure on an old connection drops the new one.
* (C54) `ensure_initialized` can return success without a connection: when `close()` happens while it waits, or when its
  `try_read` meets a writer.
* (C59) A failed subscribe and the reconnection task can deadlock (lock order `connection` / `subscribed_topics`).
* (C68) `close()` may never return: a reconnection task that is spawned but not yet recorded when `close()` looks for
  it is not aborted and keeps the lock that `close()` waits for.

* (C91) With TCP or TCP with TLS a client that waits for messages never notices that its broker's host is gone: keep-alive is not
  enabled (tcp.rs, tcp_tls.rs; quic.rs enables it) and the protocol has no heartbeat between clients and brokers. The same holds
  for a broker and its users or other brokers until something is sent to them.
* (C91) After a broker died the marshal goes on naming it until its entry expires, up to a minute; if it was the least loaded one,
  every attempt of every client fails until then.
* (C103) `connect` of all protocols takes the first address its host name resolves to and an IPv4 socket: a name whose first address is
  an IPv6 one, or one where nothing listens, cannot be connected to although its other addresses answer. The resolution
  (`to_socket_addrs`) blocks the thread; the client's ten seconds do not bound it. The QUIC handshake on the listening side has
  no time limit of its own (TLS has five seconds).
* `connect` may take five seconds for TCP and five for TLS, and the client does that twice, with two authentications, under one limit
  of ten seconds: a marshal that is slow but within its own limits makes every attempt fail.

**Authentication and discovery**

* (C35) The marshal stores the permit under the key bytes as received, not under the key that was verified; keys with
  several encodings denote one user by several names.
* (C36) A random permit of 0 or 1 is taken for a failure by the client.
* (C60) `verify_broker` accepts reflected and replayed messages within five seconds.
* (C63) Brokers whose clocks differ by more than the duration of the handshake cannot connect: the verifying side
  refuses timestamps from the future.
* (C34) The freshness check subtracts without guarding against small clocks (wraps in release builds).
* (C55) With Redis, outstanding permits never count as load.
* (C105) Users who have arrived since a broker's last heartbeat (ten seconds apart) are counted by nobody: redeeming a
  permit removes it, and the report was made before. A crowd that connects quickly all goes to one broker
  (`C105_uneven_embedded`, `C105_uneven_redis`).
* (C106) A user who moves to another broker may read a broadcast twice: once at the old broker, and again at the new one when the copy
  passed on between the brokers arrives after the user (`C106_false`). Frames carry no identity by which a reader could tell.
  Direct messages are never doubled.
* (C56, C57, C61) An empty whitelist admits everyone with Redis. With Embedded the update fails and nobody is admitted;
  the same after an update with duplicates or with more than 32766 keys. While Embedded updates the whitelist,
  first everyone and then nobody is admitted; Redis updates atomically.
* (C88) Taking somebody off the whitelist does not take away the permit they hold, and brokers do not look at the whitelist when
  a user connects: they may still connect 40 seconds later (`C88_late_login`) and stay until the next pass but one. The bound of
  100 seconds holds only while the store answers: each failed query spares the user for another minute, without limit
  (`C88_needs_answers`), and the queries of a pass have no timeout.
* A broker with total load `u64::MAX` is never chosen; a Redis key that expires between two commands makes the call fail.
* (C42) Identifiers with a slash in an endpoint do not survive their text form.
* The heartbeat loop retries without a pause when the discovery store fails.
* (C78) A running broker disappears from discovery when two heartbeats in a row time out: the second failure comes up to
  45 seconds after the last successful write began, the next write up to 65 seconds after it, and entries expire after 60.

* `check_whitelist` in `discovery/redis.rs` asks in two commands whether there is a whitelist and whether the user is on it; a
  whitelist that is deleted in between refuses somebody who may log in.

**Connections and wire format**

* (C93) A broker connects to other brokers with the local authority, whatever files it was started with. The local authority's
  key is in the source, so with a protocol with TLS anyone is accepted as a broker (the brokers' own handshake, C60, comes
  after), and brokers started with another authority's files refuse one another: they never form a mesh. The production
  configuration uses plain TCP between brokers, where this does not show.
* (C94) `load_ca` takes the local authority if one of the two paths is missing, although its comment says "if both the cert and
  key are not specified": the process starts and clients with the production authority refuse it. A key that does not belong to
  the certificate is not noticed either.
* (C92) Every marshal and broker presents the authority's own key: whoever gets into one of them can pose as all of them, and
  none can be revoked alone.
* `finalize` in `quic.rs` waits for the handshake without a timeout of its own.
* (C107) Memory for a message is taken when its length has been read, which happens before the peer has authenticated. Two strangers
  who connect, announce a message of the largest size and send nothing more take all but two bytes of the default pool of 1 GiB until
  they are disconnected five seconds later; meanwhile the broker or marshal reads no message of anybody (`C107_false`). Strangers who
  come again and again make every message wait up to five seconds, which is also the time after which senders and logins
  are timed out (C90). A stranger needs to send four bytes for this.
* (C108) A call of the client that fails drops the client's connection, and with it everything that has arrived on it and was not yet
  asked for: up to the channel's capacity and whatever is in the buffers of the network. So an application that sends and receives loses messages
  that had already reached it when a send fails (`C108_false`). That the connection had ended would otherwise be reported only after the
  last of them (`C108_end_last_partial`).
* (C109) `soft_close` waits for a `oneshot` that travels through the channel to the sender task. If writing an earlier message fails, the
  task closes the channel and returns, but what is in an `async_channel` stays there until the channel is dropped, and the waiting call keeps
  it alive: it never returns (`C109_false`). The marshal calls `soft_close` right after sending its answer and without a timeout
  (`cdn-marshal/src/handlers.rs`, line 36), so a peer that resets its connection at that moment leaves a handler task, with its
  connection, behind for good. `writer.flush()` (`protocols/mod.rs`, line 170) has no timeout either, unlike the writes before it.
* (C110) The Redis backend reads the set of brokers with one command and then each broker's number with another. A broker that has died
  and whose heartbeat expires in between makes the whole call fail (`GET` answers nil, redis.rs:143-150), so a user's login is refused with
  "internal server error" although other brokers are alive (`C110_false`). Skipping such a broker would be enough. The SQLite backend reads
  the numbers with the rows and does not have this (`C110_embedded_found`), but may return a broker that has expired in the meantime.
* (C113) Two `set_whitelist` calls at once on SQLite can both succeed and leave the union of their lists in force. If the lists share a
  key, the primary key makes the second `INSERT` fail, and one list is in force.
* (C114) After eight bytes `DeterministicRng` yields zeros only, and its `next_u64` never moves on. It is what `sign` hands to the
  signature scheme (signature.rs:138, seed 0, so zeros throughout): harmless with BLS, which draws nothing when signing, but a scheme
  with a random nonce written after this example would reveal the key. Related, outside the model: the `key_seed` of the broker binary
  is a 64-bit number that defaults to 0 (binaries/broker.rs:65, 99), and whoever knows it has the key with which brokers
  recognise each other (C37).
* (C116) A message between brokers is lost when the connection it was sent on is replaced before it is read: `add_broker`
  aborts the receive loop of the old one (connections/mod.rs:252-322), and nobody sends again. So it is not enough that the
  two brokers have some connection at every moment. An example is in `Props/ChurnDirect`.
* (C120) A broker that crashes and is started again soon can make users unreachable who have connected elsewhere in the meantime. Told by
  another broker's initial sync of its former users it withdraws them (C85), with the version following the one it was told; the user's
  new broker, which knew the same entry, announces the new connection with the same version. Where both arrive, the identifiers decide:
  a broker less than the restarted one takes the withdrawal and forgets the user, although the user is connected and nothing is
  left to be said (`C120_false`); if the new broker itself is less than the restarted one, it drops the user's connection
  (`C120_thrown_out`). The window is the time between the user's connection and the arrival of its announcement at the brokers that
  tell the restarted one. Once nobody routes the user to the old broker and nothing under way says so, its return does no harm
  (`C120_back_partial`).
* (C121) Users of a broker that never comes back stay in the direct maps of all others for ever unless they connect elsewhere, and
  brokers started later are told of them, too: `remove_broker` has the removal commented out (connections/mod.rs:322-323), and only
  the broker that is named in an entry ever withdraws it. The maps, and the full syncs taken from them, grow with every user of such a
  broker.
* (C84) `accept` of the TCP listener also fails if `set_nodelay` fails on the connection just accepted (tcp.rs:160-164). That is an
  error of one connection, yet it ends the listener like any other; on systems where setting an option of a socket whose peer is
  gone fails, a client that leaves early enough stops the broker or the marshal.
* QUIC: `accept_bi` reads the bootstrap byte without checking its value (quic.rs:259-264). Keep-alives are sent by the connecting side
  only (quic.rs:80-83), which suffices for both to notice that the other is gone.
* The sample client (cdn-client/src/binaries/client.rs:71-121) asserts that the next message it receives is its own direct message.
  A second sample client broadcasts to the same topic, so either stops with a failed assertion once the other's broadcast arrives
  between its two steps: several senders to one user are not ordered among each other (C117, C119).
* (C124) A broker that joins while a user leaves may believe for ever that the user is where they were: the announcement
  of the departure is handled before another broker's initial sync, a removed entry about an unknown user is not kept
  (`versioned_map.rs`, `merge`), and the initial sync then brings the old entry back. No link has to fail and no sync has to
  overtake another. If the user later connects to a broker with a lesser identifier than the one that joined, the version
  starts again at 1, the tie is decided for the old entry, and messages for the user sent at the new broker are lost
  (`C124_unreachable`).
* (C126) A broker that does not remember a user gives them version 1, whatever versions were given out before. If the user's former
  broker has crashed, nobody withdraws the old entry, which third brokers keep with its higher version; the first of them to
  link to the user's new broker makes it drop the connection, although the user is nowhere else (`C126_memory_needed`). This takes two
  restarts: of the new broker, which thereby forgets, and of the old one.
* (C112) A topic sync must be handled while its connection is the registered one. Handled before `add_broker` it is lost (C53), and
  with it the interest of the peer until a topic is given up and taken again; handled after `add_broker` has put another connection in
  its place (the old receive loop is aborted, but may be past its last suspension point) it may carry versions of a process that has since
  been started again, which the new process takes long to exceed: a topic nobody wants is forwarded meanwhile. Two connections made
  at once and registered in opposite orders leave each broker on another one. Each of the two then holds the only handle to its end of a
  connection the other has dropped; the model does not say when they notice (closing is not modelled), only that whenever they are on
  the same one again, interest is exact. What was broken by a sync handled out of place lasts as long as the connection and no longer:
  the next one both register starts from nothing (`C112_interest_partial`, examples `earlyMended`, `lateMended`).
* (C111) `check_whitelist` asks whether a whitelist exists and then whether the key is in it. With SQLite, whose updates drop and refill the
  table (C61), a call during an update may fail with an error, refuse a key that is in both lists, or admit one that is in neither. With
  Redis, emptying the whitelist (which admits everybody, C56) while a call is under way makes that call refuse.
* (C29) A frame whose declared size exceeds the pool blocks all later readers.
* (C26) The sender accepts messages between `MAX_MESSAGE_SIZE` and `u32::MAX`; the reader refuses them and ends the
  connection.
* (C30) A field of 2^29 bytes or more is not read back: its length wraps (debug build: panic). Such messages exceed
  `MAX_MESSAGE_SIZE`, so they cannot be received anyway.
* (C76) In-memory transport: all `connect` calls for a listener read the answering streams from one channel, so two
  concurrent calls may get each other's stream: each then writes to one party and reads from another. A call given up while
  it waits leaves its stream behind; from then on every later connection of that listener is crossed.
* (C77) `connect` keeps the lock on the listener table while it waits to be accepted. A `connect` between the two binds of
  `Broker::new` blocks the second one, and with it everything else, for ever.
* (C82) One peer that stays connected and does not read can stop a broker for ever. The channels to the sender tasks are
  unbounded and all messages share one pool. When a write times out (five seconds), the sender task closes its channel and
  ends, but the messages in it keep their memory until the connection is removed from the table, which happens only when
  the next message is sent to that peer. If the next request for memory at the head of the queue does not fit into what is
  left, nothing can be received from anyone, so nothing is ever sent, so the connection is never removed. New users cannot log
  in either. A receiver task that waits for memory does not notice that its peer is gone. Remedies: abort the whole
  connection when its sender task ends, or drain the channel there.
* (C82) `flush` after a write has no timeout. With TLS a small message is copied into the buffer of the session, so the
  write succeeds and the sender task waits in `flush` as long as the peer does not read. All messages for that peer then stay
  in its channel, and messages of any size fill the pool in the end (`C82_false_every_size`).
* (C90) Reading and writing a message may take five seconds each, whatever its size. So the speed of the connection bounds the
  size of messages: at 100 Mbit/s about 62 MB plus what the buffers hold, although 536 MB are permitted. The limit for
  writing runs while the receiver waits for memory: if a receiver's pool is full for five seconds, peers that are sending it
  a message larger than the buffers give the connection up. Remedy: restart the limit whenever some bytes have moved.
* (C84) One failed `accept` ends the listener task, and with it the broker (`start` returns `Exited`), or the marshal, although
  the comments say that the error is printed and the loop goes on. `accept` fails when the process has no file descriptor
  left, so as many idle, unauthenticated connections as there are descriptors, opened within ten seconds, stop a broker or
  a marshal. Remedy: `continue` (with a pause) instead of `return` and `bail!`.
* When `start` of a broker returns, the tasks of connected users and brokers are not aborted (they are detached); only the end
  of the process stops them.
* Dropping an in-memory listener does not remove it from the table: the closure given to `spawn_blocking` returns a future
  that nobody awaits.
* (C31) Decoding is memory safe, but lenient: a null root pointer is an `AuthenticateWithKey` with empty fields, bytes
  after the message are ignored, wider lists are accepted as topics.

## 6. Tests of the theorems

`seeded/LOG.jsonl` records edits of the model in a scratch copy, the claims they break, the theorems that then fail to
build, and which theorems were tightened because an edit went unnoticed. A theorem is listed as failed if its proof, or
a lemma it uses, no longer builds. That a proof breaks does not show that the statement became false; where a closer
look showed that a statement would have stayed true although it should not (6/m17), it was tightened and the edit rerun.
Dependence on a failed lemma is read from `#print axioms` after replacing the broken proofs in the scratch copy. In five
runs (19/w4, 22/aw1, 23/h1, 25/h2, 25/h3) the statement of a lemma no longer elaborated, so the copy could not be built
and there was no such listing. Earlier versions of the log counted every theorem as failed in the first three of these;
now only theorems whose own check was seen to fail are listed there, by file and name. Batch 25 was stopped after three
edits, and batch 26 was not run.

`Replay/RepoTests` runs the model on the inputs of the project's own tests and checks the same assertions: versioned map, relational
map, topic sync, routing of direct and broadcast messages by a broker, serialization, and the parts of the end-to-end tests that
are decided by the table, the receive loop and the discovery store.

## 7. Axioms of the claimed theorems

<!-- axioms: generated from #print axioms -->

**no axioms** (1):
`Auth.C34_clock_needed`

**propext** (22):
`Network.C14_progress`, `Prune.C16_prune`, `Discovery.C33_embedded_failed_attempt`, `Ident.C42_round_trip`, `Ident.C42_display_injective`, `Ident.C42_parse_fails_iff`, `Ident.C42_parse_spec`, `Ident.C42_slash_needed`, `Discovery.C56_redis_false`, `Discovery.C57_false`, `Discovery.C61_false`, `Discovery.C61_embedded_windows`, `Memory.C76_false`, `Memory.C76_false_given_up`, `Transfer.C90_in_order_partial`, `Connect.C103_false_v6`, `Connect.C103_false_second`, `Connect.C103_false`, `Connect.C103_finalize_false`, `Reading.C108_failures_partial`, `Returns.C109_send_partial`, `Returns.C109_recv_partial`

**Quot.sound, propext** (108):
`VersionedMap.C01_read_your_writes`, `VersionedMap.C01_copies_agree`, `VersionedMap.C01_removeIfEquals_other`, `VersionedMap.C01_full_copy_unmodified`, `VersionedMap.C01_remove_by_value`, `VersionedMap.C05_second_diff_empty`, `VersionedMap.C06_false`, `Connections.C09_latest_connection`, `Connections.C10_gauges_exact`, `Connections.C11_side_condition_needed`, `BrokerFrames.C14_routing_is_the_loops`, `Broker.C15_forwarded_verbatim`, `Prune.C16_no_adjacent_repetition`, `Broker.C17_disconnected_iff_offence`, `Broker.C17_skipped_no_effect`, `UserSync.C24_false`, `Frame.C25_progress`, `Discovery.C32_embedded`, `Discovery.C32_embedded_call`, `Discovery.C32_embedded_trace`, `Redeeming.C32_embedded_disturbed`, `Discovery.C33_embedded_once`, `Discovery.C33_embedded_wrong_broker`, `Discovery.C33_embedded_wrong_broker_fails`, `AuthRun.C36_embedded_broker_partial`, `Discovery.C39_embedded_least`, `Discovery.C39_outstanding_exists`, `Discovery.C39_embedded_fails_iff`, `Discovery.C40_embedded_load`, `Discovery.C41_embedded_default`, `Discovery.C41_embedded_succeeds_iff`, `Ident.C43_never_dials_connected`, `Client.C47_one_reconnection`, `Client.C47_started_only_without_connection`, `Client.C47_never_replaced`, `ClientLocks.C51_false`, `ClientLocks.C54_false`, `ClientLocks.C54_false_without_close`, `Discovery.C56_embedded_partial`, `Discovery.C57_failure_admits_nobody_partial`, `ClientLocks.C59_chains_partial`, `ClientLocks.C59_no_cycle_partial`, `SessionEnds.C70_loop_ends_iff`, `SessionEnds.C70_only_the_offender`, `SessionEnds.C70_can_disconnect`, `SessionEnds.C70_user_loop`, `SessionEnds.C70_broker_loop`, `MeshUsers.C73_false`, `MeshUsers.C74_false`, `MeshUsers.C74_false_stable_links`, `Memory.C76_right_endpoint`, `Memory.C77_false`, `EndToEnd.C80_unchanged`, `Backlog.C82_comes_to_rest`, `Backlog.C82_next_send_removes_partial`, `Listing.C83_embedded_listing`, `Listing.C83_embedded_choice`, `Process.C84_false`, `Process.C84_false_one_error`, `MeshCrash.C85_false`, `MeshCrash.C85_under_way_false`, `Eviction.C88_needs_answers`, `Eviction.C88_late_login`, `Eviction.C88_goes_on`, `Hooks.C89_every_message`, `Hooks.C89_nothing_after_an_error`, `Hooks.C89_skipped`, `Hooks.C89_same_loop`, `Failover.C91_false`, `Failover.C91_late`, `Trust.C92_only`, `Trust.C92_reached`, `Trust.C93_partial`, `Trust.C93_refused`, `Trust.C93_false`, `Trust.C94_partial`, `Trust.C94_false`, `MeshTime.C98_bound_reached`, `MeshPatience.C99_wait_needed`, `Connect.C103_connects_iff_partial`, `Connect.C103_time`, `Connect.C103_reaches_partial`, `Connect.C103_limited`, `Connect.C103_blocks`, `Connect.C103_finalize`, `Spread.C105_burst_embedded_partial`, `Once.C106_false`, `Wait.C107_false`, `Reading.C108_in_order_partial`, `Reading.C108_end_last_partial`, `Reading.C108_kept_partial`, `Returns.C109_soft_close_partial`, `Returns.C109_false`, `Checking.C111_embedded_false`, `Linking.C112_false`, `Linking.C112_late_false`, `Updating.C113_false`, `Rng.C114_stream`, `Rng.C114_pieces`, `Rng.C114_next_u64`, `MeshFailover.C120_false`, `MeshFailover.C120_thrown_out`, `MeshFailover.C121_false`, `MeshOnceDirect.C122_false`, `MeshJoin.C124_false`, `MeshJoin.C124_unreachable`, `MeshHistory.C126_memory_needed`, `MeshHistoryTimeBound.C128_bound_reached`

**Classical.choice, Quot.sound, propext** (300):
`VersionedMap.C02_merge_winner`, `VersionedMap.C02_merge_loser`, `VersionedMap.C02_merge_order_irrelevant`, `VersionedMap.C03_changes_exact`, `VersionedMap.C04_merge_idempotent`, `VersionedMap.C04_versions_monotone`, `VersionedMap.C05_diff_contents`, `VersionedMap.C05_peer_catches_up`, `VersionedMap.C06_conflicts_converge_partial`, `RelationalMap.C07_index_is_relation`, `RelationalMap.C07_directions_agree`, `Connections.C08_routed_iff_connected`, `Connections.C09_aborted_iff_replaced`, `Connections.C11_interested_are_connected`, `Connections.C11_removed_not_interested`, `Broker.C12_broadcast_exact`, `Broker.C12_broadcast_concurrent`, `Broker.C12_user_subscription_history`, `BrokerFrames.C12_user_frame`, `BrokerFrames.C12_broker_frame`, `Broker.C13_direct_exact`, `Broker.C13_direct_concurrent`, `BrokerFrames.C13_user_frame`, `BrokerFrames.C13_broker_frame`, `BrokerFrames.C14_never_forwarded_again`, `Network.C14_at_most_one_link`, `Network.C14_finitely_many_sends`, `BrokerFrames.C16_subscribe_frame`, `BrokerFrames.C16_unsubscribe_frame`, `Broker.C17_offender_removed`, `Network.C18_broadcast_exactly_once`, `Network.C19_direct_exactly_once`, `Network.C20_fifo`, `NetworkOrder.C20_order_always`, `Broker.C21_sync_sent_to_all`, `TopicSync.C21_topic_interest_converges`, `TopicSync.C21_lastSynced_current`, `TopicSync.C22_sync_iff_changed`, `UserSync.C23_location_converges`, `UserSync.C24_agree_in_turn_partial`, `Frame.C25_received_is_prefix`, `Frame.C25_all_received`, `Frame.C26_reservations_bounded`, `Frame.C26_oversize_refused`, `Frame.C27_only_complete`, `Frame.C27_then_fails`, `Pool.C28_budget`, `Pool.C28_returned_once`, `Pool.C28_whole_pool_again`, `Pool.C29_in_order`, `Pool.C29_served`, `Pool.C29_needs_size`, `Codec.C30_partial`, `Codec.C30_exactly`, `Codec.C30_false`, `Codec.C30_receivable`, `Codec.C30_injective`, `Codec.C31_no_overread`, `Codec.C31_slices`, `Codec.C31_bounded`, `Discovery.C32_redis`, `Discovery.C32_redis_trace`, `Discovery.C33_redis_once`, `Discovery.C33_redis_failed_attempt`, `PermitCount.C33_embedded_count`, `PermitCount.C33_redis_count`, `Auth.C34_only_checked`, `Auth.C34_otherwise_failure`, `Auth.C34_success_answer`, `Auth.C35_same_key_partial`, `Auth.C35_canonical_partial`, `Auth.C35_false`, `AuthRun.C36_redis_marshal_partial`, `AuthRun.C36_redis_broker_partial`, `AuthRun.C36_embedded_marshal_partial`, `AuthRun.C36_false`, `Auth.C37_accepts_iff`, `Auth.C37_no_false_answer`, `Handshake.C37_dialer_iff`, `Auth.C38_namespaces`, `Auth.C38_injective`, `Auth.C38_useless_elsewhere`, `Discovery.C39_redis_least_partial`, `Discovery.C39_max_is_never_chosen`, `Discovery.C40_embedded_listing`, `Discovery.C40_redis_listing`, `Discovery.C40_redis_load`, `Discovery.C41_redis_default`, `Discovery.C41_embedded`, `Discovery.C41_redis_partial`, `Ident.C43_exactly_one_dials`, `Ident.C43_mesh_is_quiet`, `Ident.C43_round`, `Whitelist.C44_kicks_exactly`, `Whitelist.C44_undisturbed`, `Whitelist.C44_stores`, `Client.C45_stays_closed_partial`, `Client.C45_false`, `Client.C46_auth_topics`, `Client.C46_unchanged_until_connected`, `ClientLocks.C48_what_is_sent_partial`, `ClientLocks.C48_false`, `ClientLocks.C48_new_topic_partial`, `Sessions.C49_false`, `Sessions.C49_false_send`, `Sessions.C49_partial`, `Frame.C50_soft_close_flushes`, `Frame.C50_written_is_on_the_wire`, `ClientLocks.C51_drops_its_own_partial`, `Sessions.C52_false`, `Sessions.C52_partial`, `Sessions.C53_false`, `Sessions.C53_partial`, `ClientLocks.C54_alone_partial`, `Discovery.C55_false`, `Discovery.C55_permits_never_count`, `Discovery.C58_permit_keys`, `Discovery.C58_load_keys`, `Discovery.C58_load_and_permit_keys`, `Discovery.C58_set_keys`, `Discovery.C58_slash_needed`, `ClientLocks.C59_false`, `Auth.C60_false`, `Auth.C60_not_later_partial`, `Discovery.C61_redis_partial`, `AuthWorld.C62_redis`, `AuthWorld.C62_embedded`, `Handshake.C63_outcome_partial`, `Handshake.C63_same_clock_partial`, `Handshake.C63_false`, `Sessions.C64_false`, `Sessions.C64_partial`, `Sessions.C65_false`, `Sessions.C65_partial`, `Sessions.C66_false`, `Sessions.C66_partial`, `Sessions.C66_one_active_partial`, `Whitelist.C67_isolation`, `ClientClose.C68_false`, `ClientClose.C68_partial`, `Codec.C69_decodes_to_prefix`, `Codec.C69_all_decoded`, `Mesh.C71_interest_exact`, `Mesh.C71_can_settle`, `Mesh.C72_subscribed_iff_asked`, `Mesh.C72_broadcast_after_calm`, `Linking.C73_connection_level_partial`, `MeshOnce.C73_lesser_links_partial`, `MeshUsers.C73_dropped_iff`, `MeshUsers.C73_greatest_stays_partial`, `Linking.C74_connection_level_partial`, `MeshEpochs.C74_epochs_partial`, `MeshOnce.C74_once_partial`, `MeshTurn.C74_in_turn_partial`, `Linking.C75_connection_level`, `MeshTurn.C75_direct_after_moves`, `Memory.C76_paired_iff`, `Memory.C76_one_by_one_partial`, `Memory.C76_given_up_spoils`, `Memory.C77_served_partial`, `Heartbeat.C78_embedded`, `Heartbeat.C78_redis`, `Heartbeat.C78_embedded_gone`, `Heartbeat.C78_redis_gone`, `Heartbeat.C78_two_failures`, `Heartbeat.C78_embedded_goes_on`, `Heartbeat.C78_redis_goes_on`, `Heartbeat.C79_embedded`, `Heartbeat.C79_redis`, `EndToEnd.C80_meant_for_them`, `EndToEnd.C81_broadcast`, `EndToEnd.C81_direct`, `EndToEnd.C81_order`, `Backlog.C82_stuck_for_ever`, `Backlog.C82_stuck_while_unread`, `Backlog.C82_false`, `Backlog.C82_false_every_size`, `Backlog.C82_served_partial`, `Backlog.C82_all_served_partial`, `Backlog.C82_reaches_rest`, `Listing.C83_redis_listing`, `Listing.C83_redis_choice`, `Process.C84_unauthenticated_leave`, `Process.C84_keeps_running_partial`, `Process.C84_goes_on`, `MeshCrash.C85_withdraws`, `MeshCrash.C85_crash_forgotten_partial`, `MeshCrash.C85_elsewhere`, `Linking.C86_connection_level`, `MeshCrash.C86_routes_to_where_connected`, `Agree.C87_client_accounts`, `Agree.C87_false`, `Agree.C87_agree_partial`, `Eviction.C88_off_the_network`, `Transfer.C90_size_partial`, `Transfer.C90_false`, `Transfer.C90_busy_partial`, `Transfer.C90_received_partial`, `Transfer.C90_goes_on_partial`, `Failover.C91_connected_partial`, `Failover.C91_goes_on_partial`, `Startup.C95_distinct`, `Startup.C95_distinct_in_store`, `Startup.C95_needed`, `Latency.C96_partial`, `Latency.C96_first_partial`, `Latency.C96_mixed`, `Latency.C96_stale`, `Latency.C96_false`, `Whole.C97_reads_what_was_written`, `Whole.C97_absent_reads_nothing`, `Whole.C97_in_the_end`, `MeshTime.C98_known_in_time`, `MeshTime.C98_forgotten_in_time`, `MeshTime.C98_known_after_sync`, `MeshTime.C98_time_goes_on`, `MeshPatience.C99_found_after_waiting`, `MeshPatience.C99_time_goes_on`, `MeshPatience.C99_direct_after_waiting`, `WholeTime.C100_reads_what_was_written`, `WholeTime.C100_absent_reads_nothing`, `WholeTime.C100_in_the_end`, `WholeTime.C100_time_goes_on`, `WholeTime.C100_quiet_needed`, `Realm.C101_redis`, `Realm.C101_embedded`, `Realm.C101_peers`, `Realm.C102_redis`, `Realm.C102_embedded`, `Meter.C104_counts`, `Meter.C104_bound`, `Meter.C104_equal`, `Meter.C104_fleet`, `Meter.C104_fleet_bound`, `Spread.C105_choice_embedded_partial`, `Spread.C105_choice_redis_partial`, `Spread.C105_uneven_embedded`, `Spread.C105_uneven_redis`, `Once.C106_per_broker`, `Once.C106_direct`, `Once.C106_moves_partial`, `Once.C106_client`, `Wait.C107_all_brief_partial`, `Wait.C107_in_turn_partial`, `Wait.C107_in_turn_tight`, `Reading.C108_one_each_partial`, `Reading.C108_false`, `Choosing.C110_redis_least_partial`, `Choosing.C110_redis_fails_partial`, `Choosing.C110_false`, `Choosing.C110_embedded_least`, `Choosing.C110_embedded_found`, `Checking.C111_redis_partial`, `Checking.C111_redis_some_moment_partial`, `Checking.C111_redis_false`, `Checking.C111_embedded_some_moment_partial`, `Linking.C112_interest_partial`, `Linking.C112_can_settle`, `Linking.C112_subscribed_iff_asked`, `Linking.C112_broadcast_partial`, `Updating.C113_union_partial`, `Updating.C113_one_list_partial`, `Updating.C113_report_partial`, `Updating.C113_redis_partial`, `Rng.C114_seeds_differ`, `Churn.C115_broadcast`, `Churn.C116_direct`, `Churn.C117_broadcasts`, `Churn.C117_both`, `Churn.C117_directs`, `ChurnSafe.C118_meant_for_them`, `ChurnSafe.C118_one_link`, `ChurnSafe.C118_once_per_broker`, `ChurnSafe.C118_direct_once`, `ChurnSafe.C118_moves`, `ChurnSafe.C118_finitely_many_sends`, `Echo.C119_own_messages`, `MeshBack.C120_back_partial`, `MeshFailover.C120_found_partial`, `MeshFailover.C120_greatest_partial`, `MeshFound.C120_delivered_partial`, `MeshFailover.C121_kept`, `MeshFailover.C121_forgotten_partial`, `MeshOnceDirect.C122_reaches_partial`, `Kept.C123_departures`, `Kept.C123_after_sync`, `Kept.C123_topics`, `KeptMesh.C123_mesh`, `KeptMesh.C123_nothing_left`, `MeshJoin.C124_stays_partial`, `MeshJoin.C124_then_moves_partial`, `MeshEpochsDirect.C125_direct_after_epochs`, `MeshHistory.C126_found`, `MeshHistory.C126_direct`, `MeshHistory.C126_can_settle`, `MeshHistoryTopics.C127_broadcast`, `MeshHistoryTime.C128_found_in_time`, `MeshHistoryTime.C128_time_goes_on`, `MeshHistoryTime.C128_direct_in_time`, `MeshHistoryTimeTopics.C129_broadcast_in_time`
