{
 "claims": [
  {
   "property": "C01",
   "status": "proved",
   "theorems": [
    "Verif.Props.VersionedMap.C01_read_your_writes",
    "Verif.Props.VersionedMap.C01_copies_agree",
    "Verif.Props.VersionedMap.C01_removeIfEquals_other",
    "Verif.Props.VersionedMap.C01_full_copy_unmodified",
    "Verif.Props.VersionedMap.C01_remove_by_value"
   ],
   "note": "simulation against an ordinary map over all local histories"
  },
  {
   "property": "C02",
   "status": "proved",
   "theorems": [
    "Verif.Props.VersionedMap.C02_merge_winner",
    "Verif.Props.VersionedMap.C02_merge_loser",
    "Verif.Props.VersionedMap.C02_merge_order_irrelevant"
   ],
   "note": "winner, loser and iteration-order independence of merge"
  },
  {
   "property": "C03",
   "status": "proved",
   "theorems": [
    "Verif.Props.VersionedMap.C03_changes_exact"
   ],
   "note": "exact change list"
  },
  {
   "property": "C04",
   "status": "proved",
   "theorems": [
    "Verif.Props.VersionedMap.C04_merge_idempotent",
    "Verif.Props.VersionedMap.C04_versions_monotone"
   ],
   "note": "idempotence and version monotonicity of merge"
  },
  {
   "property": "C05",
   "status": "proved",
   "theorems": [
    "Verif.Props.VersionedMap.C05_diff_contents",
    "Verif.Props.VersionedMap.C05_second_diff_empty",
    "Verif.Props.VersionedMap.C05_peer_catches_up"
   ],
   "note": "diff contents over all histories; peer agreement assumes no stored version is 2^64-1 (the counter would wrap)"
  },
  {
   "property": "C06",
   "status": "partial",
   "theorems": [
    "Verif.Props.VersionedMap.C06_false",
    "Verif.Props.VersionedMap.C06_conflicts_converge_partial"
   ],
   "note": "false in general: C06_false gives the counterexample (greater identity removes what the lesser rewrites). The partial theorem proves convergence for every other combination"
  },
  {
   "property": "C07",
   "status": "proved",
   "theorems": [
    "Verif.Props.RelationalMap.C07_index_is_relation",
    "Verif.Props.RelationalMap.C07_directions_agree"
   ],
   "note": "refinement of the two-way index to a plain relation, over all histories"
  },
  {
   "property": "C08",
   "status": "proved",
   "theorems": [
    "Verif.Props.Connections.C08_routed_iff_connected"
   ],
   "note": "invariant over all histories of Connections calls, incl. arbitrary received sync maps"
  },
  {
   "property": "C09",
   "status": "proved",
   "theorems": [
    "Verif.Props.Connections.C09_latest_connection",
    "Verif.Props.Connections.C09_aborted_iff_replaced"
   ],
   "note": "tokens identify connections; distinct tokens per registration assumed"
  },
  {
   "property": "C10",
   "status": "proved",
   "theorems": [
    "Verif.Props.Connections.C10_gauges_exact"
   ],
   "note": "invariant over all histories"
  },
  {
   "property": "C11",
   "status": "proved",
   "theorems": [
    "Verif.Props.Connections.C11_interested_are_connected",
    "Verif.Props.Connections.C11_removed_not_interested",
    "Verif.Props.Connections.C11_side_condition_needed"
   ],
   "note": "the side condition of the statement (subscribe only for connected users) is shown necessary by C11_side_condition_needed"
  },
  {
   "property": "C12",
   "status": "proved",
   "theorems": [
    "Verif.Props.Broker.C12_broadcast_exact",
    "Verif.Props.Broker.C12_broadcast_concurrent",
    "Verif.Props.Broker.C12_user_subscription_history",
    "Verif.Props.BrokerFrames.C12_user_frame",
    "Verif.Props.BrokerFrames.C12_broker_frame"
   ],
   "note": "any pattern of failing sends; interference by other tasks covered by C12_broadcast_concurrent; subscription tied to the history by C12_user_subscription_history"
  },
  {
   "property": "C13",
   "status": "proved",
   "theorems": [
    "Verif.Props.Broker.C13_direct_exact",
    "Verif.Props.Broker.C13_direct_concurrent",
    "Verif.Props.BrokerFrames.C13_user_frame",
    "Verif.Props.BrokerFrames.C13_broker_frame"
   ],
   "note": "reachable states; interference covered by C13_direct_concurrent"
  },
  {
   "property": "C14",
   "status": "proved",
   "theorems": [
    "Verif.Props.BrokerFrames.C14_never_forwarded_again",
    "Verif.Props.BrokerFrames.C14_routing_is_the_loops",
    "Verif.Props.Network.C14_at_most_one_link",
    "Verif.Props.Network.C14_finitely_many_sends",
    "Verif.Props.Network.C14_progress"
   ],
   "note": "Network of any brokers, any (inconsistent, changing) tables, hooks, failing sends and schedule: at most one broker link, broker frames only go to users, finitely many sends, no deadlock."
  },
  {
   "property": "C15",
   "status": "proved",
   "theorems": [
    "Verif.Props.Broker.C15_forwarded_verbatim"
   ],
   "note": "over whole receive loops with arbitrary hooks and interference"
  },
  {
   "property": "C16",
   "status": "proved",
   "theorems": [
    "Verif.Props.BrokerFrames.C16_subscribe_frame",
    "Verif.Props.BrokerFrames.C16_unsubscribe_frame",
    "Verif.Props.Prune.C16_prune",
    "Verif.Props.Prune.C16_no_adjacent_repetition"
   ],
   "note": "any set of valid topics"
  },
  {
   "property": "C17",
   "status": "proved",
   "theorems": [
    "Verif.Props.Broker.C17_disconnected_iff_offence",
    "Verif.Props.Broker.C17_offender_removed",
    "Verif.Props.Broker.C17_skipped_no_effect"
   ],
   "note": "over whole receive loops with arbitrary hooks; recv errors count as an offence; cancellation = shorter frame sequence"
  },
  {
   "property": "C18",
   "status": "proved",
   "theorems": [
    "Verif.Props.Network.C18_broadcast_exactly_once"
   ],
   "note": "Full mesh of any size with topic interest in sync, static tables, no failed sends, no-op hook: exactly-once at quiescence, never more before."
  },
  {
   "property": "C19",
   "status": "proved",
   "theorems": [
    "Verif.Props.Network.C19_direct_exactly_once"
   ],
   "note": "As C18 for direct messages with user routing in sync."
  },
  {
   "property": "C20",
   "status": "proved",
   "theorems": [
    "Verif.Props.Network.C20_fifo",
    "Verif.Props.NetworkOrder.C20_order_always"
   ],
   "note": "C20_fifo: prefix at every moment, equality at quiescence; the sender publishes at one broker. C20_order_always: arbitrary tables, table changes, hooks, failing sends; subsequence of what was published. The queue of a link is one queue also when the link is replaced."
  },
  {
   "property": "C21",
   "status": "proved",
   "theorems": [
    "Verif.Props.Broker.C21_sync_sent_to_all",
    "Verif.Props.TopicSync.C21_topic_interest_converges",
    "Verif.Props.TopicSync.C21_lastSynced_current"
   ],
   "note": "version counters are assumed not to wrap (history shorter than 2^64)"
  },
  {
   "property": "C22",
   "status": "proved",
   "theorems": [
    "Verif.Props.TopicSync.C22_sync_iff_changed"
   ],
   "note": "for every history"
  },
  {
   "property": "C23",
   "status": "proved",
   "theorems": [
    "Verif.Props.UserSync.C23_location_converges"
   ],
   "note": "Invariant over every schedule in which the changes of the user come in turn, any number of brokers; other users unrestricted; fewer than 2^64-1 steps."
  },
  {
   "property": "C24",
   "status": "partial",
   "theorems": [
    "Verif.Props.UserSync.C24_false",
    "Verif.Props.UserSync.C24_agree_in_turn_partial"
   ],
   "note": "The full claim (AlwaysAgree) is false of the code: C24_false gives a nine step schedule with two brokers. Partial: agreement for every user whose changes came in turn."
  },
  {
   "property": "C25",
   "status": "proved",
   "theorems": [
    "Verif.Props.Frame.C25_received_is_prefix",
    "Verif.Props.Frame.C25_all_received",
    "Verif.Props.Frame.C25_progress"
   ],
   "note": "Any schedule, any chunking, any failures: received is a prefix of submitted; complete once idle without failures; every effective step decreases a measure. The byte stream is assumed reliable and in order up to a cut."
  },
  {
   "property": "C26",
   "status": "proved",
   "theorems": [
    "Verif.Props.Frame.C26_reservations_bounded",
    "Verif.Props.Frame.C26_oversize_refused"
   ],
   "note": "Arbitrary peer bytes, any schedule."
  },
  {
   "property": "C27",
   "status": "proved",
   "theorems": [
    "Verif.Props.Frame.C27_only_complete",
    "Verif.Props.Frame.C27_then_fails"
   ],
   "note": "Any truncation point, any schedule."
  },
  {
   "property": "C28",
   "status": "proved",
   "theorems": [
    "Verif.Props.Pool.C28_budget",
    "Verif.Props.Pool.C28_returned_once",
    "Verif.Props.Pool.C28_whole_pool_again"
   ],
   "note": "For every schedule of requests, cancellations, clones and drops: handed-out and unfreed bytes never exceed the pool; space is given back at most once and exactly when all handles are dropped; when all are dropped any request up to the whole pool is served at once. tokio's semaphore is written out from its documentation (trusted)."
  },
  {
   "property": "C29",
   "status": "proved",
   "theorems": [
    "Verif.Props.Pool.C29_in_order",
    "Verif.Props.Pool.C29_served",
    "Verif.Props.Pool.C29_needs_size"
   ],
   "note": "Liveness on every endless schedule under the two conditions in the statement; order for non-empty messages. C29_needs_size shows the size condition is needed: a hint larger than the pool blocks every later reader."
  },
  {
   "property": "C30",
   "status": "partial",
   "theorems": [
    "Verif.Props.Codec.C30_partial",
    "Verif.Props.Codec.C30_exactly",
    "Verif.Props.Codec.C30_false",
    "Verif.Props.Codec.C30_receivable",
    "Verif.Props.Codec.C30_injective"
   ],
   "note": "False for a field of 2^29 bytes or more: the element count does not fit the list pointer and wraps (a debug build panics); C30_exactly shows that the round trip succeeds exactly if all fields are shorter, and C30_receivable that this covers every message short enough to be received (MAX_MESSAGE_SIZE). The capnp crate is not in /repo; its encoder (segments, far pointers, any allocation policy) and reader are modelled from its published format and version 0.20.6."
  },
  {
   "property": "C31",
   "status": "proved",
   "theorems": [
    "Verif.Props.Codec.C31_no_overread",
    "Verif.Props.Codec.C31_slices",
    "Verif.Props.Codec.C31_bounded"
   ],
   "note": "Reader of the capnp crate modelled with explicit out-of-bounds errors; topics may be read from lists of wider elements, so they are a subsequence, the other fields are consecutive bytes."
  },
  {
   "property": "C32",
   "status": "proved",
   "theorems": [
    "Verif.Props.Discovery.C32_embedded",
    "Verif.Props.Discovery.C32_embedded_call",
    "Verif.Props.Discovery.C32_redis",
    "Verif.Props.Discovery.C32_embedded_trace",
    "Verif.Props.Discovery.C32_redis_trace",
    "Verif.Props.Redeeming.C32_embedded_disturbed"
   ],
   "note": "Both backends, every history of atomic steps (SQL statements, Redis commands) of any number of processes, with and without global permits. Endpoints without a slash."
  },
  {
   "property": "C33",
   "status": "proved",
   "theorems": [
    "Verif.Props.Discovery.C33_embedded_once",
    "Verif.Props.Discovery.C33_redis_once",
    "Verif.Props.Discovery.C33_embedded_failed_attempt",
    "Verif.Props.Discovery.C33_redis_failed_attempt",
    "Verif.Props.Discovery.C33_embedded_wrong_broker",
    "Verif.Props.Discovery.C33_embedded_wrong_broker_fails",
    "Verif.Props.PermitCount.C33_embedded_count",
    "Verif.Props.PermitCount.C33_redis_count"
   ],
   "note": "SQLite: over all brokers. Redis: per broker (the number is scoped by the broker there; with global permits over all brokers). A failed attempt changes nothing; a valid permit survives attempts elsewhere."
  },
  {
   "property": "C34",
   "status": "proved",
   "theorems": [
    "Verif.Props.Auth.C34_only_checked",
    "Verif.Props.Auth.C34_otherwise_failure",
    "Verif.Props.Auth.C34_success_answer",
    "Verif.Props.Auth.C34_clock_needed"
   ],
   "note": "Every execution of verify_user with any client and any store; the clock must be at least five seconds past the epoch (C34_clock_needed: the unsigned subtraction wraps otherwise)."
  },
  {
   "property": "C35",
   "status": "partial",
   "theorems": [
    "Verif.Props.Auth.C35_same_key_partial",
    "Verif.Props.Auth.C35_canonical_partial",
    "Verif.Props.Auth.C35_false"
   ],
   "note": "FALSE of the code for key encodings that decode although they are not canonical (C35_false): the permit is stored with the received bytes. Proved: the identity denotes the checked key, and equals the checked bytes for canonical encodings."
  },
  {
   "property": "C36",
   "status": "partial",
   "theorems": [
    "Verif.Props.AuthRun.C36_redis_marshal_partial",
    "Verif.Props.AuthRun.C36_redis_broker_partial",
    "Verif.Props.AuthRun.C36_embedded_marshal_partial",
    "Verif.Props.AuthRun.C36_embedded_broker_partial",
    "Verif.Props.AuthRun.C36_false"
   ],
   "note": "FALSE when permit number 0 or 1 is drawn (C36_false, any scheme). Proved for both backends, both phases, every interleaving with other processes that leave the client's permit and the broker's heartbeat alone: client and broker always finish, in a bounded number of steps, with the right identity and topics. SQLite: also permit numbers already in use are excluded."
  },
  {
   "property": "C37",
   "status": "proved",
   "theorems": [
    "Verif.Props.Auth.C37_accepts_iff",
    "Verif.Props.Auth.C37_no_false_answer",
    "Verif.Props.Handshake.C37_dialer_iff"
   ],
   "note": "Every execution of verify_broker."
  },
  {
   "property": "C38",
   "status": "proved",
   "theorems": [
    "Verif.Props.Auth.C38_namespaces",
    "Verif.Props.Auth.C38_injective",
    "Verif.Props.Auth.C38_useless_elsewhere"
   ],
   "note": "Byte-level injectivity of what is signed; a verifier accepting only what was signed never accepts a signature made for another purpose."
  },
  {
   "property": "C39",
   "status": "partial",
   "theorems": [
    "Verif.Props.Discovery.C39_embedded_least",
    "Verif.Props.Discovery.C39_outstanding_exists",
    "Verif.Props.Discovery.C39_embedded_fails_iff",
    "Verif.Props.Discovery.C39_redis_least_partial",
    "Verif.Props.Discovery.C39_max_is_never_chosen"
   ],
   "note": "Proved in full for SQLite. Redis: minimal by reported users only, because permits never count there (C55_false); the load u64::MAX is never chosen (witness)."
  },
  {
   "property": "C40",
   "status": "proved",
   "theorems": [
    "Verif.Props.Discovery.C40_embedded_listing",
    "Verif.Props.Discovery.C40_redis_listing",
    "Verif.Props.Discovery.C40_embedded_load",
    "Verif.Props.Discovery.C40_redis_load"
   ],
   "note": "Both backends, every history whose clock readings are not later than the query."
  },
  {
   "property": "C41",
   "status": "partial",
   "theorems": [
    "Verif.Props.Discovery.C41_embedded_default",
    "Verif.Props.Discovery.C41_redis_default",
    "Verif.Props.Discovery.C41_embedded",
    "Verif.Props.Discovery.C41_embedded_succeeds_iff",
    "Verif.Props.Discovery.C41_redis_partial"
   ],
   "note": "SQLite in full, with the exact condition under which the call succeeds. Redis for non-empty lists; for the empty list it is false (C56_redis_false)."
  },
  {
   "property": "C42",
   "status": "proved",
   "theorems": [
    "Verif.Props.Ident.C42_round_trip",
    "Verif.Props.Ident.C42_display_injective",
    "Verif.Props.Ident.C42_parse_fails_iff",
    "Verif.Props.Ident.C42_parse_spec",
    "Verif.Props.Ident.C42_slash_needed"
   ],
   "note": "The condition (no slash in the endpoints) is needed: C42_slash_needed."
  },
  {
   "property": "C43",
   "status": "proved",
   "theorems": [
    "Verif.Props.Ident.C43_exactly_one_dials",
    "Verif.Props.Ident.C43_never_dials_connected",
    "Verif.Props.Ident.C43_mesh_is_quiet",
    "Verif.Props.Ident.C43_round"
   ],
   "note": "Any two distinct identities; any mesh."
  },
  {
   "property": "C44",
   "status": "proved",
   "theorems": [
    "Verif.Props.Whitelist.C44_kicks_exactly",
    "Verif.Props.Whitelist.C44_undisturbed",
    "Verif.Props.Whitelist.C44_stores"
   ],
   "note": "C44_kicks_exactly: with any operations of other tasks between the visits, a user the store rejects is disconnected, unsubscribed and its task aborted, and a user not rejected sees exactly what it would see without the task (also when the store fails). C44_undisturbed, C44_stores: exact effect of a quiet pass, with both stores."
  },
  {
   "property": "C45",
   "status": "partial",
   "theorems": [
    "Verif.Props.Client.C45_stays_closed_partial",
    "Verif.Props.Client.C45_false"
   ],
   "note": "FALSE of the code: C45_false. After close() a receive_message may hang for ever instead of failing: an unrecorded reconnection task keeps retrying while it holds the lock the call waits for. Proved instead: C45_stays_closed_partial, once closed the client never becomes connected or usable again and no operation started later succeeds."
  },
  {
   "property": "C46",
   "status": "proved",
   "theorems": [
    "Verif.Props.Client.C46_auth_topics",
    "Verif.Props.Client.C46_unchanged_until_connected"
   ],
   "note": "Over every interleaving of client tasks: the topics sent with each authentication are the recorded ones, and the record changes only through completed subscribe/unsubscribe calls."
  },
  {
   "property": "C47",
   "status": "proved",
   "theorems": [
    "Verif.Props.Client.C47_one_reconnection",
    "Verif.Props.Client.C47_started_only_without_connection",
    "Verif.Props.Client.C47_never_replaced"
   ],
   "note": "Over every interleaving of client tasks: at most one recorded reconnection at a time, started only without a connection, and never replaced while it runs."
  },
  {
   "property": "C48",
   "status": "partial",
   "theorems": [
    "Verif.Props.ClientLocks.C48_what_is_sent_partial",
    "Verif.Props.ClientLocks.C48_false",
    "Verif.Props.ClientLocks.C48_new_topic_partial"
   ],
   "note": "FALSE of the code: C48_false. A redundant subscribe or unsubscribe sends an empty topic list, for which the broker disconnects the user. Proved instead: what is sent is exactly the difference, and with at least one new topic the list sent is not empty."
  },
  {
   "property": "C49",
   "status": "partial",
   "theorems": [
    "Verif.Props.Sessions.C49_false",
    "Verif.Props.Sessions.C49_false_send",
    "Verif.Props.Sessions.C49_partial"
   ],
   "note": "False: C49_false (receive loop) and C49_false_send (failed send) give the races, for every configuration, user and topics: the removal by the old connection goes by public key and hits the new one. C49_partial proves the property when the old connections are gone for good (tasks ended or suspended and aborted, no failed send pending)."
  },
  {
   "property": "C50",
   "status": "proved",
   "theorems": [
    "Verif.Props.Frame.C50_soft_close_flushes",
    "Verif.Props.Frame.C50_written_is_on_the_wire"
   ],
   "note": "Any schedule. Written means write_all and flush returned; QUIC's finish/stopped inside soft_close is not modelled."
  },
  {
   "property": "C51",
   "status": "partial",
   "theorems": [
    "Verif.Props.ClientLocks.C51_drops_its_own_partial",
    "Verif.Props.ClientLocks.C51_false"
   ],
   "note": "FALSE of the code: C51_false. A late failure on an old connection drops the newer one. Proved instead: with no reconnection in between, the failing call drops its own connection."
  },
  {
   "property": "C52",
   "status": "partial",
   "theorems": [
    "Verif.Props.Sessions.C52_false",
    "Verif.Props.Sessions.C52_partial"
   ],
   "note": "False: C52_false, for every configuration in which the message is valid: a subscription handled between the spawn of the receive loop and add_user is erased by add_user. C52_partial proves it for subscriptions handled while the user is registered on that connection, and for the topics given at authentication."
  },
  {
   "property": "C53",
   "status": "partial",
   "theorems": [
    "Verif.Props.Sessions.C53_false",
    "Verif.Props.Sessions.C53_partial"
   ],
   "note": "False: C53_false: a topic sync handled before add_broker is dropped, and nothing is forwarded to the connected peer. C53_partial: handled after the registration, exactly the announced topics are forwarded. Convergence over whole histories of syncs is C21."
  },
  {
   "property": "C54",
   "status": "partial",
   "theorems": [
    "Verif.Props.ClientLocks.C54_false",
    "Verif.Props.ClientLocks.C54_false_without_close",
    "Verif.Props.ClientLocks.C54_alone_partial"
   ],
   "note": "FALSE of the code: C54_false (returns Ok although close() happened while waiting) and C54_false_without_close (try_read contention). Proved instead for a caller alone."
  },
  {
   "property": "C55",
   "status": "partial",
   "theorems": [
    "Verif.Props.Discovery.C55_false",
    "Verif.Props.Discovery.C55_permits_never_count"
   ],
   "note": "FALSE of the code: C55_false is a concrete witness, C55_permits_never_count the general fact: issuing a permit never changes the choice with Redis."
  },
  {
   "property": "C56",
   "status": "partial",
   "theorems": [
    "Verif.Props.Discovery.C56_embedded_partial",
    "Verif.Props.Discovery.C56_redis_false"
   ],
   "note": "True of SQLite (the call also returns an error), FALSE of Redis: C56_redis_false."
  },
  {
   "property": "C57",
   "status": "partial",
   "theorems": [
    "Verif.Props.Discovery.C57_false",
    "Verif.Props.Discovery.C57_failure_admits_nobody_partial"
   ],
   "note": "FALSE of SQLite: C57_false. What holds: a failed update admits nobody (fail-safe)."
  },
  {
   "property": "C58",
   "status": "proved",
   "theorems": [
    "Verif.Props.Discovery.C58_permit_keys",
    "Verif.Props.Discovery.C58_load_keys",
    "Verif.Props.Discovery.C58_load_and_permit_keys",
    "Verif.Props.Discovery.C58_set_keys",
    "Verif.Props.Discovery.C58_slash_needed"
   ],
   "note": "Endpoints without a slash; C58_slash_needed shows the condition is needed."
  },
  {
   "property": "C59",
   "status": "partial",
   "theorems": [
    "Verif.Props.ClientLocks.C59_false",
    "Verif.Props.ClientLocks.C59_chains_partial",
    "Verif.Props.ClientLocks.C59_no_cycle_partial"
   ],
   "note": "FALSE of the code: C59_false, a reachable deadlock between a failed subscribe and the reconnection task. Proved instead: the shape of the waits-for chains and when no cycle exists."
  },
  {
   "property": "C60",
   "status": "partial",
   "theorems": [
    "Verif.Props.Auth.C60_false",
    "Verif.Props.Auth.C60_not_later_partial"
   ],
   "note": "FALSE of the code for every correct signature scheme: C60_false. What holds: C60_not_later_partial, no copy is accepted by a broker whose clock shows less than the timestamp or more than five seconds after it. Missing: at most once, not by the sender."
  },
  {
   "property": "C61",
   "status": "partial",
   "theorems": [
    "Verif.Props.Discovery.C61_false",
    "Verif.Props.Discovery.C61_embedded_windows",
    "Verif.Props.Discovery.C61_redis_partial"
   ],
   "note": "FALSE of SQLite: C61_false, C61_embedded_windows (first everyone, then nobody is allowed). True of Redis (one atomic pipeline)."
  },
  {
   "property": "C62",
   "status": "proved",
   "theorems": [
    "Verif.Props.AuthWorld.C62_redis",
    "Verif.Props.AuthWorld.C62_embedded"
   ],
   "note": "Any number of processes in any interleaving, both backends, with and without global permits; calls may report an error although their step was taken. Clocks at least five seconds past the epoch; endpoints without a slash."
  },
  {
   "property": "C63",
   "status": "partial",
   "theorems": [
    "Verif.Props.Handshake.C63_outcome_partial",
    "Verif.Props.Handshake.C63_same_clock_partial",
    "Verif.Props.Handshake.C63_false"
   ],
   "note": "FALSE of the code: C63_false. A timestamp ahead of the verifier's clock is refused however little it is ahead, and each side verifies the other, so two brokers whose clocks differ by more than the duration of the handshake never connect. Proved instead: exactly when the handshake succeeds (C63_outcome_partial), in particular with equal clocks."
  },
  {
   "property": "C64",
   "status": "partial",
   "theorems": [
    "Verif.Props.Sessions.C64_false",
    "Verif.Props.Sessions.C64_partial"
   ],
   "note": "False: C64_false: a receive loop that ends before add_user leaves a user listed that nobody reads from. C64_partial: connections registered while their receive task was there are unlisted once the task has ended, for users and brokers."
  },
  {
   "property": "C65",
   "status": "partial",
   "theorems": [
    "Verif.Props.Sessions.C65_false",
    "Verif.Props.Sessions.C65_partial"
   ],
   "note": "False: C65_false: a subscription handled after the user was removed, before the abort takes effect, is announced although no user is connected and no task is left. C65_partial: true if every subscription was handled while its user was connected."
  },
  {
   "property": "C66",
   "status": "partial",
   "theorems": [
    "Verif.Props.Sessions.C66_false",
    "Verif.Props.Sessions.C66_partial",
    "Verif.Props.Sessions.C66_one_active_partial"
   ],
   "note": "False: C66_false: a replaced connection whose receive loop is running still subscribes the user. C66_partial: once its task is not running it never handles a frame or removes anybody again. C66_one_active_partial: of the registered connections of a user exactly the listed one is un-aborted."
  },
  {
   "property": "C67",
   "status": "proved",
   "theorems": [
    "Verif.Props.Whitelist.C67_isolation"
   ],
   "note": "C67_isolation: connection, route and interest of a user after any history equal those after the history without the operations of other users."
  },
  {
   "property": "C68",
   "status": "partial",
   "theorems": [
    "Verif.Props.ClientClose.C68_false",
    "Verif.Props.ClientClose.C68_partial"
   ],
   "note": "C68_false: a close() that never returns, in every continuation without another close(). C68_partial: if no call is between spawning and recording a reconnection task when close() looks for it, close() can return at every later moment by local steps only. Missing: the excluded interleaving, a time bound."
  },
  {
   "property": "C69",
   "status": "proved",
   "theorems": [
    "Verif.Props.Codec.C69_decodes_to_prefix",
    "Verif.Props.Codec.C69_all_decoded"
   ],
   "note": "Composes the codec with the connection model of C25-C27, C50."
  },
  {
   "property": "C70",
   "status": "proved",
   "theorems": [
    "Verif.Props.SessionEnds.C70_loop_ends_iff",
    "Verif.Props.SessionEnds.C70_only_the_offender",
    "Verif.Props.SessionEnds.C70_can_disconnect",
    "Verif.Props.SessionEnds.C70_user_loop",
    "Verif.Props.SessionEnds.C70_broker_loop"
   ],
   "note": "Liveness is stated as: the removal is always possible next; that the task is scheduled is the runtime's business."
  },
  {
   "property": "C71",
   "status": "proved",
   "theorems": [
    "Verif.Props.Mesh.C71_interest_exact",
    "Verif.Props.Mesh.C71_can_settle"
   ],
   "note": "Model/Mesh: links that come and go, brokers that crash and are started again, concurrent non-atomic sync tasks. C71_can_settle shows that the premise can be reached from every reachable state with a link."
  },
  {
   "property": "C72",
   "status": "proved",
   "theorems": [
    "Verif.Props.Mesh.C72_subscribed_iff_asked",
    "Verif.Props.Mesh.C72_broadcast_after_calm"
   ],
   "note": "Composition of C71 with C18; the tables are those reached by the mesh, not assumed."
  },
  {
   "property": "C73",
   "status": "partial",
   "theorems": [
    "Verif.Props.Linking.C73_connection_level_partial",
    "Verif.Props.MeshOnce.C73_lesser_links_partial",
    "Verif.Props.MeshUsers.C73_false",
    "Verif.Props.MeshUsers.C73_dropped_iff",
    "Verif.Props.MeshUsers.C73_greatest_stays_partial"
   ],
   "note": "False: C73_false (a full user sync repeats the receiver's own entry, the greater identity wins the tie, and apply_user_sync drops the live user). C73_dropped_iff says exactly when a step drops a user, restarts of the broker included; C73_greatest_stays_partial proves the claim for users of the broker with the greatest identity, over schedules in which the other brokers may be restarted. C73_connection_level_partial: the same connection by connection. C73_lesser_links_partial: for users of any broker, as long as no link of that broker to a greater one comes up after the user has connected (nor has just come up); links that are up, links to lesser brokers and links between others are free. Missing, since false: new links to greater brokers."
  },
  {
   "property": "C74",
   "status": "partial",
   "theorems": [
    "Verif.Props.Linking.C74_connection_level_partial",
    "Verif.Props.MeshEpochs.C74_epochs_partial",
    "Verif.Props.MeshOnce.C74_once_partial",
    "Verif.Props.MeshTurn.C74_in_turn_partial",
    "Verif.Props.MeshUsers.C74_false",
    "Verif.Props.MeshUsers.C74_false_stable_links"
   ],
   "note": "False if links fail (C74_false) and even if they do not (C74_false_stable_links). C74_in_turn_partial: with stable links and each user's changes in turn all brokers agree on the user's last broker. C74_connection_level_partial: the same connection by connection, when each pair has registered one connection from both ends before the user comes, whatever is still handled on other connections. C74_once_partial: links may fail and come back for users who connect once and stay, with the same exception as C73. C74_epochs_partial joins the two: any number of moves, and any number of link failures and restarts of other brokers in between, in alternating phases. Missing, since false: overlapping changes, and changes of a user while links fail."
  },
  {
   "property": "C75",
   "status": "proved",
   "theorems": [
    "Verif.Props.Linking.C75_connection_level",
    "Verif.Props.MeshTurn.C75_direct_after_moves"
   ],
   "note": "Composition of C74_in_turn_partial with C19; its hypotheses are part of the property. C75_connection_level: the same over the connection-level mesh."
  },
  {
   "property": "C76",
   "status": "partial",
   "theorems": [
    "Verif.Props.Memory.C76_paired_iff",
    "Verif.Props.Memory.C76_false",
    "Verif.Props.Memory.C76_one_by_one_partial",
    "Verif.Props.Memory.C76_given_up_spoils",
    "Verif.Props.Memory.C76_false_given_up",
    "Verif.Props.Memory.C76_right_endpoint"
   ],
   "note": "False (C76_false: two concurrent connects get each other's stream; C76_false_given_up: after a connect given up while waiting, the next one gets its stream even if calls never overlap). C76_paired_iff is exact: all connections are paired iff at every listener the calls received in the order they sent. C76_given_up_spoils: a call given up after sending spoils the listener for good. C76_one_by_one_partial: with at most one waiting call per listener at a time and none given up while waiting, every connection is paired."
  },
  {
   "property": "C77",
   "status": "partial",
   "theorems": [
    "Verif.Props.Memory.C77_false",
    "Verif.Props.Memory.C77_served_partial"
   ],
   "note": "False (C77_false: a connect to a listener that is bound but not accepting yet holds the table's lock, and the second bind of Broker::new never returns, nor does any other call; accepting begins only after it). C77_served_partial: from every reachable state, steps of the lock, the listeners' accepts and the calls themselves lead to a state with no call pending."
  },
  {
   "property": "C78",
   "status": "proved",
   "theorems": [
    "Verif.Props.Heartbeat.C78_embedded",
    "Verif.Props.Heartbeat.C78_redis",
    "Verif.Props.Heartbeat.C78_embedded_gone",
    "Verif.Props.Heartbeat.C78_redis_gone",
    "Verif.Props.Heartbeat.C78_two_failures",
    "Verif.Props.Heartbeat.C78_embedded_goes_on",
    "Verif.Props.Heartbeat.C78_redis_goes_on"
   ],
   "note": "C78_embedded, C78_redis: for at most k failed heartbeats in a row whenever (k+1)(20+3d)+5+d <= 60 seconds, d being how late the runtime resumes a task (k = 1: d up to 2.1 s; k = 0: 8.75 s); the load on record was read at most that long ago. C78_embedded_gone, C78_redis_gone: gone after 60 s. C78_two_failures: two failures in a row are too many. C78_embedded_goes_on, C78_redis_goes_on: time can always go on with all brokers running and no call failing (also for C79). Assumed: one clock; a call that failed or timed out has no effect afterwards."
  },
  {
   "property": "C79",
   "status": "proved",
   "theorems": [
    "Verif.Props.Heartbeat.C79_embedded",
    "Verif.Props.Heartbeat.C79_redis"
   ],
   "note": "C79_embedded, C79_redis: with the timed loops of all brokers and the store's history; composition of C78, C40 and the dialling rule of C43."
  },
  {
   "property": "C80",
   "status": "proved",
   "theorems": [
    "Verif.Props.EndToEnd.C80_unchanged",
    "Verif.Props.EndToEnd.C80_meant_for_them"
   ],
   "note": "C80_unchanged for arbitrary hooks; C80_meant_for_them for no-op hooks and brokers that originate only syncs. Tables change arbitrarily (setTable), sends fail arbitrarily."
  },
  {
   "property": "C81",
   "status": "proved",
   "theorems": [
    "Verif.Props.EndToEnd.C81_broadcast",
    "Verif.Props.EndToEnd.C81_direct",
    "Verif.Props.EndToEnd.C81_order"
   ],
   "note": "C81_broadcast, C81_direct, C81_order compose C18, C19, C20 with C30: the network's decode function is the modelled deserialize. The conditions (mesh in sync, no failures) are those of the statement; C71-C75 say when a mesh comes to be in sync."
  },
  {
   "property": "C82",
   "status": "partial",
   "theorems": [
    "Verif.Props.Backlog.C82_stuck_for_ever",
    "Verif.Props.Backlog.C82_stuck_while_unread",
    "Verif.Props.Backlog.C82_false",
    "Verif.Props.Backlog.C82_false_every_size",
    "Verif.Props.Backlog.C82_served_partial",
    "Verif.Props.Backlog.C82_all_served_partial",
    "Verif.Props.Backlog.C82_comes_to_rest",
    "Verif.Props.Backlog.C82_reaches_rest",
    "Verif.Props.Backlog.C82_next_send_removes_partial"
   ],
   "note": "False as stated. C82_false: with any pool that holds three messages of a bytes, two users suffice (run jam): one sends three messages to the other, who does not read; writing the first fails after five seconds, the sender task ends and the rest of its channel stays allocated; when the next message does not fit into what is left, no message of anybody is handled any more, for ever (C82_stuck_for_ever, for every stuck state and every continuation), unless the silent peer sends or closes or one of the two is removed by other means. C82_false_every_size: for messages of every size and every pool, as many messages as fit into the pool, sent to one who does not read, are enough while the sender task waits for them to read (C82_stuck_while_unread); with TLS that wait has no limit, because flush has no timeout. What holds (C82_served_partial, C82_all_served_partial, C82_comes_to_rest, C82_reaches_rest): without new input the broker comes to rest; at rest, the only messages with memory are those in channels whose sender task has ended, and if these leave room for a message of maximal size nobody waits and everything else is served. C82_next_send_removes_partial: the next message to a peer to which writing failed removes its connection."
  },
  {
   "property": "C83",
   "status": "proved",
   "theorems": [
    "Verif.Props.Listing.C83_embedded_listing",
    "Verif.Props.Listing.C83_embedded_choice",
    "Verif.Props.Listing.C83_redis_listing",
    "Verif.Props.Listing.C83_redis_choice"
   ],
   "note": "C83_embedded_listing, C83_redis_listing: after any history of store operations by brokers with arbitrary endpoints, listing the other brokers answers with a list; it never fails or panics on what it finds. C83_embedded_choice, C83_redis_choice: after a heartbeat of any broker, until that heartbeat expires, choosing the least loaded broker finds one, whatever was stored before and after. For Redis the announced number must be below 2^64-1 (with 2^64-1 connections the loop would pick none). That the answer names the right broker needs endpoints without slashes (C42)."
  },
  {
   "property": "C84",
   "status": "partial",
   "theorems": [
    "Verif.Props.Process.C84_unauthenticated_leave",
    "Verif.Props.Process.C84_keeps_running_partial",
    "Verif.Props.Process.C84_false",
    "Verif.Props.Process.C84_false_one_error",
    "Verif.Props.Process.C84_goes_on"
   ],
   "note": "False as stated. C84_false: for every number of descriptors, that many peers who connect and do nothing, and one more, make accept fail; the listener task returns (the marshal bails), start() returns and nobody is accepted any more. C84_false_one_error: one failed accept is enough in every state. What holds: C84_unauthenticated_leave: a connection that is not authenticated is gone after ten seconds (twice the timeout, plus lateness of the runtime; at the marshal plus the time soft_close takes, which the code does not limit); C84_keeps_running_partial: if at most n peers connect within any such window, and there are descriptors for n and for every key that can authenticate, and accept fails only for want of descriptors, start() does not return, whatever happens on the connections. C84_goes_on: time can always go on. Missing: the same without the bound, which the code does not provide."
  },
  {
   "property": "C85",
   "status": "partial",
   "theorems": [
    "Verif.Props.MeshCrash.C85_false",
    "Verif.Props.MeshCrash.C85_under_way_false",
    "Verif.Props.MeshCrash.C85_withdraws",
    "Verif.Props.MeshCrash.C85_crash_forgotten_partial",
    "Verif.Props.MeshCrash.C85_elsewhere"
   ],
   "note": "False: C85_false (a full user sync of a third broker, sent before the crash was noticed, arrives after the withdrawal, which leaves no trace at the receiver, and puts the old entry back). C85_crash_forgotten_partial: true if nothing about the user was under way at the crash and only links of the crashed broker come up afterwards; C85_withdraws: how the restarted broker withdraws what it is told; C85_elsewhere: the other users. Missing, since false: links of other brokers coming up afterwards, crashes while something about the user is under way (C85_under_way_false)."
  },
  {
   "property": "C86",
   "status": "proved",
   "theorems": [
    "Verif.Props.Linking.C86_connection_level",
    "Verif.Props.MeshCrash.C86_routes_to_where_connected"
   ],
   "note": "Model/Mesh with crashes; no restriction on the schedule. `C86_connection_level`: the same in Model/Linking, where each end registers connections in its own time and frames are handled on connections not registered, too."
  },
  {
   "property": "C87",
   "status": "partial",
   "theorems": [
    "Verif.Props.Agree.C87_client_accounts",
    "Verif.Props.Agree.C87_false",
    "Verif.Props.Agree.C87_agree_partial"
   ],
   "note": "C87_client_accounts (no bound, all interleavings, cancellations and reconnections): while the client has a connection, the topics asked for with successful calls are exactly what follows from the topics the connection was authenticated with and the subscriptions sent on it since. C87_false: the full statement fails because the broker may handle a subscription before it registers the connection (C52). C87_agree_partial: client and broker composed, they agree whenever the broker handled nothing of the connection before registering it and nothing of other connections of the same user afterwards. That the broker reads the messages the client wrote is a hypothesis (C69, C30)."
  },
  {
   "property": "C88",
   "status": "proved",
   "theorems": [
    "Verif.Props.Eviction.C88_off_the_network",
    "Verif.Props.Eviction.C88_needs_answers",
    "Verif.Props.Eviction.C88_late_login",
    "Verif.Props.Eviction.C88_goes_on"
   ],
   "note": "C88_off_the_network: any run up to the removal, any run after it during which the key stays off the whitelist and no query of a whitelist task about it fails; 100 s + 2 passes + 5 delays later no broker has the user. C88_needs_answers: with failing queries the user stays for any length of time. C88_late_login: forty of the hundred seconds are real, a login that began before the removal is completed 40 s after it. With the Embedded store an update of the whitelist passes through states in which everybody is allowed (C61); such an update counts as putting the key back. C88_goes_on: from every reachable state time can go on without limit with the whitelist as it is and all queries answered."
  },
  {
   "property": "C89",
   "status": "proved",
   "theorems": [
    "Verif.Props.Hooks.C89_every_message",
    "Verif.Props.Hooks.C89_nothing_after_an_error",
    "Verif.Props.Hooks.C89_skipped",
    "Verif.Props.Hooks.C89_same_loop"
   ],
   "note": "All connections of one broker in Model/Sessions, any interleaving. The set-up of the hook (clone and set_identifier) is an arbitrary initial state."
  },
  {
   "property": "C90",
   "status": "partial",
   "theorems": [
    "Verif.Props.Transfer.C90_size_partial",
    "Verif.Props.Transfer.C90_false",
    "Verif.Props.Transfer.C90_busy_partial",
    "Verif.Props.Transfer.C90_in_order_partial",
    "Verif.Props.Transfer.C90_received_partial",
    "Verif.Props.Transfer.C90_goes_on_partial"
   ],
   "note": "C90_false: with the five seconds of the code, a 100 Mbit/s connection never delivers a message of MAX_MESSAGE_SIZE, in any run (C90_size_partial gives the bound for all parameters). C90_busy_partial: a message that does not fit into the buffers of the transport is lost if its receiver waits for memory longer than the sender's limit. C90_received_partial, C90_goes_on_partial: on a fast connection without needless waiting neither side gives up and everything is received by the time the network can have carried it. C90_in_order_partial: always a beginning of what was sent. Missing from the partial theorems: connections with flush (TLS) and waits for memory between nothing and the limit."
  },
  {
   "property": "C91",
   "status": "partial",
   "theorems": [
    "Verif.Props.Failover.C91_connected_partial",
    "Verif.Props.Failover.C91_false",
    "Verif.Props.Failover.C91_late",
    "Verif.Props.Failover.C91_goes_on_partial"
   ],
   "note": "C91_connected_partial: with a bound d for noticing the loss, connected at the latest max(60 s, d + time between uses) + 12 s after the end of the trouble, plus twice the response time and twice the lateness of the runtime. C91_false: without such a bound (TCP without keep-alive) there are runs of any length without a connection. C91_late: a minute may pass even if the loss is noticed at once. C91_goes_on_partial: from every reachable state time can go on without trouble for as long as one likes. Missing: clients that are closed or subscribe meanwhile (C59, C68), whitelists, failures of the marshal (part of the trouble)."
  },
  {
   "property": "C92",
   "status": "proved",
   "theorems": [
    "Verif.Props.Trust.C92_only",
    "Verif.Props.Trust.C92_reached"
   ],
   "note": "C92_only (soundness against an adversary that makes, sees and presents any certificates) and C92_reached. Assumes what rustls checks as written in the model's verify, symbolic signatures, and that the production key signs nothing else."
  },
  {
   "property": "C93",
   "status": "partial",
   "theorems": [
    "Verif.Props.Trust.C93_partial",
    "Verif.Props.Trust.C93_refused",
    "Verif.Props.Trust.C93_false"
   ],
   "note": "C93_false (an outsider is accepted, over every protocol, without any key of the operator), C93_refused (brokers with another authority's key always refuse one another over TLS), C93_partial (brokers started without files reach one another). The production configuration uses plain TCP between brokers, where nothing is checked."
  },
  {
   "property": "C94",
   "status": "partial",
   "theorems": [
    "Verif.Props.Trust.C94_partial",
    "Verif.Props.Trust.C94_false"
   ],
   "note": "C94_false (three witnesses), C94_partial (two files given)."
  },
  {
   "property": "C95",
   "status": "proved",
   "theorems": [
    "Verif.Props.Startup.C95_distinct",
    "Verif.Props.Startup.C95_distinct_in_store",
    "Verif.Props.Startup.C95_needed"
   ],
   "note": "C95_distinct, C95_distinct_in_store (no slash in endpoints and addresses); C95_needed: without the placeholder all brokers of the configuration have one identity. Addresses of machines are fixed and different; a listening socket is exclusive."
  },
  {
   "property": "C96",
   "status": "partial",
   "theorems": [
    "Verif.Props.Latency.C96_partial",
    "Verif.Props.Latency.C96_first_partial",
    "Verif.Props.Latency.C96_mixed",
    "Verif.Props.Latency.C96_stale",
    "Verif.Props.Latency.C96_false"
   ],
   "note": "False: C96_false; C96_mixed: a message of any latency v released between the two reads makes the gauge show 0 and then v too much; C96_stale: without new messages the gauge keeps the old average for ever. C96_partial, C96_first_partial: exact if no observation is under way during the two rounds and some message was released in between. Missing, since false: the rest."
  },
  {
   "property": "C97",
   "status": "proved",
   "theorems": [
    "Verif.Props.Whole.C97_reads_what_was_written",
    "Verif.Props.Whole.C97_absent_reads_nothing",
    "Verif.Props.Whole.C97_in_the_end"
   ],
   "note": "Composition of C71, C72 and C74 with C81: C97_reads_what_was_written assumes nothing of the routing tables, they are those the history produced (in_sync). C97_in_the_end: whatever is in flight can be carried to its end by receive loops and senders alone. C97_absent_reads_nothing. That the changes of one user happen in turn and that no link fails after users have connected is necessary in general: see C73-C76."
  },
  {
   "property": "C98",
   "status": "proved",
   "theorems": [
    "Verif.Props.MeshTime.C98_known_in_time",
    "Verif.Props.MeshTime.C98_forgotten_in_time",
    "Verif.Props.MeshTime.C98_known_after_sync",
    "Verif.Props.MeshTime.C98_time_goes_on",
    "Verif.Props.MeshTime.C98_bound_reached"
   ],
   "note": "Bounds on the durations are parameters (Delays); within them any run. C98_known_in_time and C98_forgotten_in_time give the two directions, C98_known_after_sync the shorter bound counted from the start of a sync. C98_bound_reached: the bound is exact. C98_time_goes_on: in every reachable state a whole interval can pass, by syncs alone, with nothing overdue (finitely many brokers)."
  },
  {
   "property": "C99",
   "status": "proved",
   "theorems": [
    "Verif.Props.MeshPatience.C99_found_after_waiting",
    "Verif.Props.MeshPatience.C99_time_goes_on",
    "Verif.Props.MeshPatience.C99_direct_after_waiting",
    "Verif.Props.MeshPatience.C99_wait_needed"
   ],
   "note": "C99_found_after_waiting: the timing condition implies C74's condition (changes in turn) and that nothing is unannounced or under way; C99_direct_after_waiting composes it with C75; C99_time_goes_on: waiting is always possible; C99_wait_needed: with the wait shorter by one millisecond the conclusion fails. Links are assumed steady once the user is known (otherwise false: C73_false, C74_false). The elastic client does not wait before it connects to another broker (C24)."
  },
  {
   "property": "C100",
   "status": "proved",
   "theorems": [
    "Verif.Props.WholeTime.C100_reads_what_was_written",
    "Verif.Props.WholeTime.C100_absent_reads_nothing",
    "Verif.Props.WholeTime.C100_in_the_end",
    "Verif.Props.WholeTime.C100_time_goes_on",
    "Verif.Props.WholeTime.C100_quiet_needed"
   ],
   "note": "C100_reads_what_was_written, C100_absent_reads_nothing, C100_in_the_end: the hypotheses of C97 about what has been announced and has arrived, and about changes in turn, are replaced by the clock (C98, C99). C100_time_goes_on: quiet time can always pass. C100_quiet_needed: with a millisecond less of quiet a message is missed. Links are steady once users connect and no send between brokers fails (otherwise C73_false, C74_false); routing tables do not change while the messages are delivered."
  },
  {
   "property": "C101",
   "status": "proved",
   "theorems": [
    "Verif.Props.Realm.C101_redis",
    "Verif.Props.Realm.C101_embedded",
    "Verif.Props.Realm.C101_peers"
   ],
   "note": "Both stores, global or not. Composition over Model/Realm: arbitrary processes against one store, sessions and routing of all brokers. No assumption of unforgeability: the conclusion is that verifying signatures were presented. Hypotheses: broker identifiers without a slash in the endpoints, clocks at least five seconds after 1970, message hooks that let everything pass (the shipped ones). The chain of brokers in between is part of the model; that broker sessions are with brokers rests on the broker key (C37)."
  },
  {
   "property": "C102",
   "status": "proved",
   "theorems": [
    "Verif.Props.Realm.C102_redis",
    "Verif.Props.Realm.C102_embedded"
   ],
   "note": "Both stores, global or not; the assignment of marshal conversations to sessions is injective. Same hypotheses as C101, any hooks."
  },
  {
   "property": "C103",
   "status": "partial",
   "theorems": [
    "Verif.Props.Connect.C103_connects_iff_partial",
    "Verif.Props.Connect.C103_time",
    "Verif.Props.Connect.C103_false_v6",
    "Verif.Props.Connect.C103_false_second",
    "Verif.Props.Connect.C103_false",
    "Verif.Props.Connect.C103_reaches_partial",
    "Verif.Props.Connect.C103_limited",
    "Verif.Props.Connect.C103_blocks",
    "Verif.Props.Connect.C103_finalize",
    "Verif.Props.Connect.C103_finalize_false"
   ],
   "note": "False of the code in three ways, each shown by a witness. Only the first address the resolver gives is tried and only over IPv4, so a name whose first address is IPv6 (C103_false_v6) or dead (C103_false_second) cannot be connected to although the server answers at another of its addresses. The resolver blocks the thread, so no time limit around connect bounds it (C103_blocks). The QUIC handshake on the listening side has no time limit of its own (C103_finalize_false; in practice quinn's idle timeout, which is outside /repo). Proved: exactly when connect succeeds and to which address (C103_connects_iff_partial), that it does when all addresses are IPv4 and answer (C103_reaches_partial), and how long it takes after the resolver has answered (C103_time, C103_limited, C103_finalize)."
  },
  {
   "property": "C104",
   "status": "proved",
   "theorems": [
    "Verif.Props.Meter.C104_counts",
    "Verif.Props.Meter.C104_bound",
    "Verif.Props.Meter.C104_equal",
    "Verif.Props.Meter.C104_fleet",
    "Verif.Props.Meter.C104_fleet_bound"
   ],
   "note": "C104_counts and C104_bound for one connection and any schedule, C104_equal at rest without failures, C104_fleet and C104_fleet_bound for all processes together. Gauges are natural numbers here; the code's floating point numbers are exact up to 2^53 bytes. The four bytes of length before each message are not counted by either side."
  },
  {
   "property": "C105",
   "status": "partial",
   "theorems": [
    "Verif.Props.Spread.C105_choice_embedded_partial",
    "Verif.Props.Spread.C105_choice_redis_partial",
    "Verif.Props.Spread.C105_burst_embedded_partial",
    "Verif.Props.Spread.C105_uneven_embedded",
    "Verif.Props.Spread.C105_uneven_redis"
   ],
   "note": "False in full: users who have arrived since a broker's last heartbeat are counted by nobody (their permits are gone from the store, the report does not know them), and Redis does not count users on their way either (C55). C105_uneven_embedded and C105_uneven_redis give, for every k, a history after which the chosen broker has k users and the other one. Proved: the choice is right up to what has happened since the reports, namely the arrivals at the chosen broker and the departures at the other (C105_choice_*; for Redis only users already connected count), and, with SQLite, as long as nobody arrives, leaves or lets a permit expire, a burst of any number of users is spread so that a broker chosen is at most one above any other (C105_burst_embedded_partial)."
  },
  {
   "property": "C106",
   "status": "partial",
   "theorems": [
    "Verif.Props.Once.C106_per_broker",
    "Verif.Props.Once.C106_direct",
    "Verif.Props.Once.C106_moves_partial",
    "Verif.Props.Once.C106_false",
    "Verif.Props.Once.C106_client"
   ],
   "note": "False of broadcasts (C106_false): a reader who is handed the copy at the publisher's broker and then connects to another broker, where the copy passed on is still to be handled, reads it twice; nothing in a frame tells the copies apart. Proved for all tables, hooks, failures and moves: no broker hands one publication to the same user twice (C106_per_broker), so a user reads it at most as often as there are brokers they are ever connected to, once if they stay with one (C106_moves_partial); direct messages are read at most once by anybody, moves and inconsistent tables included (C106_direct); and the client hands a message over exactly as often as a call to send it returned Ok, never again by itself (C106_client). Assumed: no broker is connected to itself (the publisher's one), and the publication enters the network once."
  },
  {
   "property": "C107",
   "status": "partial",
   "theorems": [
    "Verif.Props.Wait.C107_all_brief_partial",
    "Verif.Props.Wait.C107_in_turn_partial",
    "Verif.Props.Wait.C107_false",
    "Verif.Props.Wait.C107_in_turn_tight"
   ],
   "note": "False (C107_false): memory is taken when the four bytes of a message's length have arrived, before anybody has authenticated; two strangers who announce the largest message take all but two bytes of the default pool of 1 GiB, and a user's message sent a millisecond later is read only when they are disconnected, five seconds later. Proved on all timed schedules of the pool: if everyone who asked before has given back or given up within T of asking, as strangers have after the five seconds of authentication, a request is served within T, however many they are (C107_all_brief_partial); if every message is given back within T of being handed out, a request made while w others wait is served within (w+1)T (C107_in_turn_partial), and no smaller bound holds for any pool, w and T (C107_in_turn_tight)."
  },
  {
   "property": "C108",
   "status": "partial",
   "theorems": [
    "Verif.Props.Reading.C108_in_order_partial",
    "Verif.Props.Reading.C108_one_each_partial",
    "Verif.Props.Reading.C108_end_last_partial",
    "Verif.Props.Reading.C108_failures_partial",
    "Verif.Props.Reading.C108_kept_partial",
    "Verif.Props.Reading.C108_false"
   ],
   "note": "The last sentence is false (C108_false): any other call that fails drops the connection, and with it whatever has arrived and was not read; nothing called later reads it. The rest holds for every run (in_order, one_each, end_last, failures), and as long as the client has not dropped the connection the oldest message not read can be read by the next call (kept)."
  },
  {
   "property": "C109",
   "status": "partial",
   "theorems": [
    "Verif.Props.Returns.C109_send_partial",
    "Verif.Props.Returns.C109_recv_partial",
    "Verif.Props.Returns.C109_soft_close_partial",
    "Verif.Props.Returns.C109_false"
   ],
   "note": "False of soft_close (C109_false): if writing an earlier message fails after the request was accepted, the request stays in the closed channel, which the waiting call itself keeps alive, and the call never returns. Proved: sends and receives on a failed connection return, then and ever after; without a failure of the sender task soft_close is acknowledged once what was accepted before it is handled. The oneshot sender being dropped only together with the channel is async-channel's behaviour (DESIGN.md 4.2)."
  },
  {
   "property": "C110",
   "status": "partial",
   "theorems": [
    "Verif.Props.Choosing.C110_redis_least_partial",
    "Verif.Props.Choosing.C110_redis_fails_partial",
    "Verif.Props.Choosing.C110_false",
    "Verif.Props.Choosing.C110_embedded_least",
    "Verif.Props.Choosing.C110_embedded_found"
   ],
   "note": "False of the Redis backend (C110_false): the list of brokers and their numbers are read by separate commands, and a broker that has died and expires in between makes the whole call, and so a user's login, fail although another broker was alive throughout. Proved: when the Redis call can fail (only so, or when no broker is listed), and for both backends which broker is returned under arbitrary interference; the SQLite call always finds a broker if one is alive when the rows are read. For Redis, outstanding permits do not count (C55) and loads of 2^64-1 are excluded (C39)."
  },
  {
   "property": "C111",
   "status": "partial",
   "theorems": [
    "Verif.Props.Checking.C111_redis_partial",
    "Verif.Props.Checking.C111_redis_some_moment_partial",
    "Verif.Props.Checking.C111_redis_false",
    "Verif.Props.Checking.C111_embedded_some_moment_partial",
    "Verif.Props.Checking.C111_embedded_false"
   ],
   "note": "False of SQLite (C111_embedded_false: during an update a key in both lists gets an error or a refusal, a key in neither is admitted) and of Redis when the whitelist is emptied, which admits everybody (C111_redis_false: refused although allowed before and after). Proved: for Redis, the property for updates to lists that are not empty; for both, every answer is that of an undisturbed call at the first or second command (Redis: unless emptied in between), and SQLite's error only comes when an update drops the table in between."
  },
  {
   "property": "C112",
   "status": "partial",
   "theorems": [
    "Verif.Props.Linking.C112_interest_partial",
    "Verif.Props.Linking.C112_can_settle",
    "Verif.Props.Linking.C112_false",
    "Verif.Props.Linking.C112_late_false",
    "Verif.Props.Linking.C112_subscribed_iff_asked",
    "Verif.Props.Linking.C112_broadcast_partial"
   ],
   "note": "False: `C112_false` (a topic sync handled before the connection is registered is lost, see C53) and `C112_late_false` (one handled on a replaced connection, from before a restart, is believed). `C112_interest_partial`: exact, for two brokers linked on a connection, unless the receiver handled a topic sync of the other on that connection while it did not have it registered, or on another one while it did; what happened between other brokers, or on earlier connections of the two, does not matter, so a new connection mends what was broken. `C112_can_settle`: the premise can be met from every reachable state in which two brokers are linked. `C112_broadcast_partial`, with `C112_subscribed_iff_asked`: once things are calm a broadcast is received exactly once by those who asked for its topics (C72 without its simplifications)."
  },
  {
   "property": "C113",
   "status": "partial",
   "theorems": [
    "Verif.Props.Updating.C113_union_partial",
    "Verif.Props.Updating.C113_one_list_partial",
    "Verif.Props.Updating.C113_report_partial",
    "Verif.Props.Updating.C113_redis_partial",
    "Verif.Props.Updating.C113_false"
   ],
   "note": "False with SQLite: `C113_false` (two lists without a common key, statements in turns: both calls succeed and the union is allowed). `C113_union_partial`: the keys allowed are the union of the lists of one or more calls that reported success, no two with a common key. `C113_one_list_partial`: exactly one list if any two of the lists have a key in common. `C113_report_partial`: a call that reports success has its keys allowed at that moment, one that reports failure has changed nothing. `C113_redis_partial`: the list set last, if it is not empty (C56)."
  },
  {
   "property": "C114",
   "status": "proved",
   "theorems": [
    "Verif.Props.Rng.C114_stream",
    "Verif.Props.Rng.C114_pieces",
    "Verif.Props.Rng.C114_seeds_differ",
    "Verif.Props.Rng.C114_next_u64"
   ],
   "note": "Model/Rng; `C114_stream`, `C114_pieces`, `C114_seeds_differ`, `C114_next_u64`, over all sequences of calls."
  },
  {
   "property": "C115",
   "status": "proved",
   "theorems": [
    "Verif.Props.Churn.C115_broadcast"
   ],
   "note": "Model/Linking and Model/Network side by side over the same tables, in any interleaving. Received means accepted by a connection of the user. Hypotheses as the property says, at every moment: connected to one broker only, subscribed, the publisher's connection and the connection between the two brokers the same; the topics of the user's broker had arrived at the publisher's broker when it began. On any other connection that is replaced or removed, any frame may be lost. The publisher's broker handles no topic sync of the user's broker on their connection while it is not registered, nor on another one while it is (as in C112; otherwise false there); no hook changes or drops messages, no send to the user or their broker fails, fewer than 2^64 steps. Frames that change tables, and removals after failed sends, take effect at labels of the mesh, at any time."
  },
  {
   "property": "C116",
   "status": "proved",
   "theorems": [
    "Verif.Props.Churn.C116_direct"
   ],
   "note": "As C115, for direct messages. That the user stays connected is a hypothesis: a full sync from a broker with a greater identity may disconnect them (C73). Once all brokers have the same entry about the user, no sync whatever brings another one, so the place stays known wherever it was known, except at brokers that are restarted. It is not enough that the two brokers have some connection at every moment: what is on a connection when it is replaced is lost (example in Props/ChurnDirect). Hooks that change or drop messages, failing sends to the user or to their broker are excluded."
  },
  {
   "property": "C117",
   "status": "proved",
   "theorems": [
    "Verif.Props.Churn.C117_broadcasts",
    "Verif.Props.Churn.C117_both",
    "Verif.Props.Churn.C117_directs"
   ],
   "note": "`C117_both`: direct messages and broadcasts together; `C117_directs` and `C117_broadcasts` need only the hypotheses of C116 and C115. At every moment what was received is a prefix of what was published. Model and hypotheses as in C115 and C116; the publisher publishes at their broker only; brokers originate only syncs."
  },
  {
   "property": "C118",
   "status": "proved",
   "theorems": [
    "Verif.Props.ChurnSafe.C118_meant_for_them",
    "Verif.Props.ChurnSafe.C118_one_link",
    "Verif.Props.ChurnSafe.C118_once_per_broker",
    "Verif.Props.ChurnSafe.C118_direct_once",
    "Verif.Props.ChurnSafe.C118_moves",
    "Verif.Props.ChurnSafe.C118_finitely_many_sends"
   ],
   "note": "Over Model/Churn from LNet.start. Asked/Asks/TakesBack are defined on the schedule alone. A subscription removed because a user sync says the user is elsewhere is not counted as taken back (the theorem is an upper bound). Messages between brokers are lost with their connection (`lose`, `loseSend`)."
  },
  {
   "property": "C119",
   "status": "proved",
   "theorems": [
    "Verif.Props.Echo.C119_own_messages"
   ],
   "note": "Over `userLoop` from a registration in any reachable table, with arbitrary calls of other tasks. `echoes`/`tune`/`forMe` are defined on the frames alone. Frames handled before the registration are the subject of C52. That the copies reach the application is C108, C69."
  },
  {
   "property": "C120",
   "status": "partial",
   "theorems": [
    "Verif.Props.MeshBack.C120_back_partial",
    "Verif.Props.MeshFailover.C120_false",
    "Verif.Props.MeshFailover.C120_thrown_out",
    "Verif.Props.MeshFailover.C120_found_partial",
    "Verif.Props.MeshFailover.C120_greatest_partial",
    "Verif.Props.MeshFound.C120_delivered_partial"
   ],
   "note": "False in full (C120_false, C120_thrown_out): a broker started again soon after a crash is told of its former users by others' initial syncs and withdraws them, under the same version under which the user's new broker announces the new connection. Decided by the order of identifiers, the withdrawal makes other brokers forget the connected user for good, or makes the new broker drop the connection. C120_found_partial: as long as the old broker stays away and no link of the new broker to a broker with a greater identifier comes up after the user has connected (C73), the user is found, whatever the other links, restarts of others and the order of syncs. C120_greatest_partial: so if the new broker has the greatest identifier all its links may come and go freely. C120_delivered_partial: under these hypotheses a direct message for the user, published at the new broker or at one linked to it that has been told everything, is received by the user exactly once and by nobody else. C120_back_partial: once nobody routes the user to the broker that crashed and nothing under way says that they are there, that broker may be linked again, and the user stays connected and found. Hypotheses about the time before the crash as in C85 (everybody knew)."
  },
  {
   "property": "C121",
   "status": "partial",
   "theorems": [
    "Verif.Props.MeshFailover.C121_kept",
    "Verif.Props.MeshFailover.C121_forgotten_partial",
    "Verif.Props.MeshFailover.C121_false"
   ],
   "note": "False in full (C121_false): remove_broker leaves the users of the removed broker in the direct map, and full syncs pass the entries on, also to brokers started later. C121_kept is the exact extent: as long as the user does not connect to any broker, every other broker that keeps running routes the user to the broker that is gone, for ever, whatever else happens. C121_forgotten_partial: users who connect to another broker (as in C120) are not routed to it any more; C85_elsewhere: nor are users who were elsewhere."
  },
  {
   "property": "C122",
   "status": "partial",
   "theorems": [
    "Verif.Props.MeshOnceDirect.C122_reaches_partial",
    "Verif.Props.MeshOnceDirect.C122_false"
   ],
   "note": "False in full (C122_false): when a link of the user's broker to a broker with a greater identifier comes up, the initial sync makes the user's broker drop the user (C73). C122_reaches_partial: exactly-once delivery to the user and to nobody else if no link to a greater broker comes up after the user has connected, nor has just come up; other links, restarts of other brokers and syncs are free, and only the user's broker need have said everything."
  },
  {
   "property": "C123",
   "status": "proved",
   "theorems": [
    "Verif.Props.Kept.C123_departures",
    "Verif.Props.Kept.C123_after_sync",
    "Verif.Props.Kept.C123_topics",
    "Verif.Props.KeptMesh.C123_mesh",
    "Verif.Props.KeptMesh.C123_nothing_left"
   ],
   "note": "C123_departures: an entry of a user who is not found stems from a removal or from a sync naming this broker since any earlier partial_user_sync, and the next one announces it. C123_after_sync: right after one, entries = users found. C123_topics: no tombstones and at most 256 entries in the topic tables. C123_mesh: the same for every broker of a mesh after any schedule; C123_nothing_left: with the theorem of C74, no trace of a user who has left. Users whose broker is gone for good are found, and kept: C121."
  },
  {
   "property": "C124",
   "status": "partial",
   "theorems": [
    "Verif.Props.MeshJoin.C124_false",
    "Verif.Props.MeshJoin.C124_unreachable",
    "Verif.Props.MeshJoin.C124_stays_partial",
    "Verif.Props.MeshJoin.C124_then_moves_partial"
   ],
   "note": "False of the code (C124_false): the initial sync of a third broker, handled after the announcement that the user has left, brings the user back at the new broker, because a removed entry about an unknown user is not kept; nothing corrects it. Consequence (C124_unreachable): when the user, with nothing under way, connects to a broker with a lesser identifier, the new broker keeps the old entry at equal versions and sends the messages for them to the broker they left, for ever. Proved (C124_stays_partial): a user who stays while the broker joins, with links that come and go and syncs in any order, remains connected and is found, provided no new link of their broker to a greater broker comes up (C73_false). C124_then_moves_partial: if the user stays until the broker has joined and everything is said, then later moves, each announced before the next, with links failing in between, are followed by the new broker like by all others."
  },
  {
   "property": "C125",
   "status": "proved",
   "theorems": [
    "Verif.Props.MeshEpochsDirect.C125_direct_after_epochs"
   ],
   "note": "Composition of C74_epochs_partial with the conservation law of the network of receive loops; its hypotheses are part of the property. The condition on greater brokers is needed (C73_false), and so is the separation of changes from link failures (C74_false, C124_false)."
  },
  {
   "property": "C126",
   "status": "proved",
   "theorems": [
    "Verif.Props.MeshHistory.C126_found",
    "Verif.Props.MeshHistory.C126_direct",
    "Verif.Props.MeshHistory.C126_memory_needed",
    "Verif.Props.MeshHistory.C126_can_settle"
   ],
   "note": "The conditions on the parts are part of the property; each is needed: greater brokers (C73_false), separation of changes from link failures (C74_false, C124_false), the crashed broker coming back only when nobody says the user is there (C120_false), and the new broker remembering the user (C126_memory_needed: otherwise the user is thrown out). Moves within a part need all brokers linked; a crash may happen while links are down."
  },
  {
   "property": "C127",
   "status": "proved",
   "theorems": [
    "Verif.Props.MeshHistoryTopics.C127_broadcast"
   ],
   "note": "As C126, for broadcasts. Unlike C72 nothing is assumed about brokers other than that of the user and that of the publisher: they may be linked or not, in any state. C126 gives that the user is connected to one broker only, C71 the interest of the publisher's broker, conservation the number of copies. The conditions on the parts are part of the property."
  },
  {
   "property": "C128",
   "status": "proved",
   "theorems": [
    "Verif.Props.MeshHistoryTime.C128_found_in_time",
    "Verif.Props.MeshHistoryTime.C128_time_goes_on",
    "Verif.Props.MeshHistoryTime.C128_direct_in_time",
    "Verif.Props.MeshHistoryTimeBound.C128_bound_reached"
   ],
   "note": "C128_found_in_time; C128_direct_in_time composes it with the network of receive loops. C128_bound_reached: the bound is exact. C128_time_goes_on: time can always go on with the link kept and the user staying. The durations are parameters (Delays), as in C98 and C99; the model sets no deadline for the start of an initial user sync, so the time is counted from when it has been started. The history before is that of C126; the number of steps is less than 2^63 (versions are u64). The case beside the theorem has broker 1 crash and come back, and broker 0 crash meanwhile."
  },
  {
   "property": "C129",
   "status": "proved",
   "theorems": [
    "Verif.Props.MeshHistoryTimeTopics.C129_broadcast_in_time"
   ],
   "note": "C129_broadcast_in_time: the invariant of C126 gives the one place where the user is registered, C98 that x forwards the topic, and the weight of C127 with conservation the copies. The durations are parameters (Delays). The case beside the theorem has broker 1 crash and come back and broker 0 crash meanwhile; broker 1 learns of the topic from the periodic sync, because the initial one has nothing to say before it."
  }
 ]
}