{"id": "C01", "title": "Versioned map reads back its own writes", "statement": "For a versioned map used only locally, get(k) after any history of insert, remove, remove_if_equals, get_full and diff calls returns exactly what an ordinary key/value map would return after the same inserts and removals. In particular taking a diff (which forgets tombstones) or a full copy never changes the answer of any get, and remove_if_equals removes only when the current value equals the given one.", "quantifier": "every finite history of local operations, every key, every key and value type", "why_tests_cant": "unit tests run a few fixed histories; the claim needs every interleaving of modifications with diffs, including tombstones deleted by diff and keys modified several times between diffs", "anchors": ["cdn-broker/src/connections/versioned_map.rs:VersionedMap::get", "cdn-broker/src/connections/versioned_map.rs:VersionedMap::insert", "cdn-broker/src/connections/versioned_map.rs:VersionedMap::remove", "cdn-broker/src/connections/versioned_map.rs:VersionedMap::remove_if_equals", "cdn-broker/src/connections/versioned_map.rs:VersionedMap::diff", "cdn-broker/src/connections/versioned_map.rs:VersionedMap::get_full"]}
{"id": "C02", "title": "Merging keeps, per key, the entry with the higher version", "statement": "After merge(remote), for each key: if remote holds a strictly newer entry, or an equally new one while remote's conflict identity is greater, the local map now answers with remote's value (nothing, if it was a removal); if only remote has the key it is adopted unless it is a removal; in every other case the local entry is untouched. The answer does not depend on the order in which the remote entries are visited.", "quantifier": "every pair of maps, every key, every iteration order of the remote map", "why_tests_cant": "hash-map iteration order is randomised per process, and the case table is over all version/value/identity combinations, so a finite set of examples cannot settle it", "anchors": ["cdn-broker/src/connections/versioned_map.rs:VersionedMap::merge"]}
{"id": "C03", "title": "Merge reports exactly the keys it changed", "statement": "The list returned by merge contains (k, v) exactly when remote's entry for k won, with v the winning value; every key is reported at most once; and a key that is not reported has the same entry as before.", "quantifier": "every pair of maps and every iteration order", "why_tests_cant": "callers kick users and change subscriptions from this list, so a missed or spurious report in any combination of entries is a routing bug; tests only compare final maps on examples", "anchors": ["cdn-broker/src/connections/versioned_map.rs:VersionedMap::merge", "cdn-broker/src/connections/mod.rs:Connections::apply_user_sync", "cdn-broker/src/connections/mod.rs:Connections::apply_topic_sync"]}
{"id": "C04", "title": "Re-delivered sync maps are harmless", "statement": "Merging the same remote map twice leaves the same entries as merging it once, and a stored entry's version never goes down through a merge.", "quantifier": "every local map, every remote map", "why_tests_cant": "duplicate delivery can happen against any state; tests only check selected states", "anchors": ["cdn-broker/src/connections/versioned_map.rs:VersionedMap::merge"]}
{"id": "C05", "title": "A diff carries every local change since the previous diff, once", "statement": "Starting from any reachable map, diff() contains exactly the keys locally modified since the last diff that were not overwritten by a newer merged entry, each with its current value; a second diff() right after is empty. A peer that held the same entries before the modifications and merges the diff answers every get like the sender.", "quantifier": "every history of local modifications and merges between two diffs, every peer that agreed at the previous diff", "why_tests_cant": "needs all histories, with repeated modification of a key, removals, and merges in between", "anchors": ["cdn-broker/src/connections/versioned_map.rs:VersionedMap::diff", "cdn-broker/src/connections/versioned_map.rs:VersionedMap::modify_local", "cdn-broker/src/connections/versioned_map.rs:VersionedMap::merge"]}
{"id": "C06", "title": "Concurrent conflicting updates resolve the same way on both sides", "statement": "If two maps with different conflict identities that agree on their entries each make local modifications and then exchange and merge each other's diffs, both maps answer every get identically afterwards, and for a key modified on both sides the value written by the greater identity wins.", "quantifier": "every common starting state, every pair of local modification histories, every key", "why_tests_cant": "the conflict space is unbounded (any number of keys, inserts against removals on either side)", "anchors": ["cdn-broker/src/connections/versioned_map.rs:VersionedMap::merge", "cdn-broker/src/connections/versioned_map.rs:VersionedMap::diff"]}
{"id": "C07", "title": "Subscription index is a faithful relation", "statement": "After any history of associate, dissociate and remove_key calls, get_keys_by_value(v) lists exactly the keys currently related to v (each once), and get_values() lists exactly the values related to at least one key (each once): a value related to no key is never listed, and looking the relation up from either side gives the same answer.", "quantifier": "every finite history of operations, all keys and values", "why_tests_cant": "tests check three short histories; the claim is an invariant over all histories, including repeated and duplicate values in one call", "anchors": ["cdn-broker/src/connections/broadcast/relational_map.rs:RelationalMap::associate_key_with_values", "cdn-broker/src/connections/broadcast/relational_map.rs:RelationalMap::dissociate_keys_from_value", "cdn-broker/src/connections/broadcast/relational_map.rs:RelationalMap::remove_key", "cdn-broker/src/connections/broadcast/relational_map.rs:RelationalMap::get_keys_by_value", "cdn-broker/src/connections/broadcast/relational_map.rs:RelationalMap::get_values"]}
{"id": "C08", "title": "A broker routes a user to itself exactly while that user is connected to it", "statement": "At every moment, get_broker_identifier_of_user(u) is the broker's own identity if and only if u currently has a connection registered at that broker - whatever sequence of user/broker arrivals, removals, subscriptions and peer sync messages (including malicious or stale ones) came before.", "quantifier": "every history of Connections operations, every content of received sync maps, every user", "why_tests_cant": "depends on arbitrary peer-supplied maps and on all interleavings of handler tasks; tests only replay friendly ones", "anchors": ["cdn-broker/src/connections/mod.rs:Connections::add_user", "cdn-broker/src/connections/mod.rs:Connections::remove_user", "cdn-broker/src/connections/mod.rs:Connections::apply_user_sync", "cdn-broker/src/connections/mod.rs:Connections::get_broker_identifier_of_user", "cdn-broker/src/connections/mod.rs:Connections::get_user_connection"]}
{"id": "C09", "title": "At most one live connection per user, and a reconnect replaces the old one", "statement": "After any history each public key has at most one registered connection, and it is the one most recently added; every connection that was registered earlier and is no longer registered has had its receive task cancelled, and no registered connection has been cancelled.", "quantifier": "every history of Connections operations", "why_tests_cant": "needs all interleavings of adds, removes and kicks for the same key", "anchors": ["cdn-broker/src/connections/mod.rs:Connections::add_user", "cdn-broker/src/connections/mod.rs:Connections::remove_user", "cdn-broker/src/connections/mod.rs:Connections::add_broker", "cdn-broker/src/connections/mod.rs:Connections::remove_broker"]}
{"id": "C10", "title": "Connection gauges equal the real number of connections", "statement": "The num_users_connected and num_brokers_connected gauges, and the load a broker reports in its heartbeat, always equal the number of registered user (broker) connections.", "quantifier": "every history of Connections operations", "why_tests_cant": "double add, double remove and kick paths interleave arbitrarily; drift shows up only after particular histories", "anchors": ["cdn-broker/src/connections/mod.rs:Connections::add_user", "cdn-broker/src/connections/mod.rs:Connections::remove_user", "cdn-broker/src/connections/mod.rs:Connections::add_broker", "cdn-broker/src/connections/mod.rs:Connections::remove_broker", "cdn-broker/src/connections/mod.rs:Connections::num_users", "cdn-broker/src/metrics.rs", "cdn-broker/src/tasks/broker/heartbeat.rs:run_heartbeat_task"]}
{"id": "C11", "title": "No subscriptions survive a disconnect", "statement": "A user or broker that is not connected receives nothing: after any history in which subscribe calls are only made for connected users, the interested set for any list of topics contains only currently connected users, and only currently connected brokers.", "quantifier": "every history of Connections operations, every topic list", "why_tests_cant": "requires every order of subscribe, unsubscribe, kick and reconnect", "anchors": ["cdn-broker/src/connections/mod.rs:Connections::get_interested_by_topic", "cdn-broker/src/connections/mod.rs:Connections::subscribe_user_to", "cdn-broker/src/connections/mod.rs:Connections::remove_user", "cdn-broker/src/connections/mod.rs:Connections::remove_broker", "cdn-broker/src/tasks/user/handler.rs:user_receive_loop"]}
{"id": "C12", "title": "Broadcast reaches exactly the subscribed recipients, once each", "statement": "When a broker handles a broadcast, each connected user subscribed to at least one of the listed topics gets exactly one copy, each connected broker whose interest includes one of the topics gets exactly one copy when the message came from a user and none when it came from a broker, and nobody else gets anything - even when topics repeat or overlap.", "quantifier": "every broker state, every topic list (with repetitions), both message origins", "why_tests_cant": "recipients are computed from arbitrary relation states and arbitrary topic lists", "anchors": ["cdn-broker/src/tasks/broker/handler.rs:handle_broadcast_message", "cdn-broker/src/connections/mod.rs:Connections::get_interested_by_topic", "cdn-broker/src/tasks/user/handler.rs:user_receive_loop", "cdn-broker/src/tasks/broker/handler.rs:broker_receive_loop"]}
{"id": "C13", "title": "Direct message goes to the recipient's broker only", "statement": "When a broker handles a direct message, it makes at most one send: to the recipient if they are connected to this broker; otherwise, only for messages that came from a user, to the single broker currently recorded for the recipient; otherwise nothing is sent.", "quantifier": "every broker state, every recipient, both message origins", "why_tests_cant": "needs all states of the routing table, including stale and peer-supplied entries", "anchors": ["cdn-broker/src/tasks/broker/handler.rs:handle_direct_message", "cdn-broker/src/tasks/user/sender.rs:try_send_to_user", "cdn-broker/src/tasks/broker/sender.rs:try_send_to_broker"]}
{"id": "C14", "title": "No forwarding loops", "statement": "A message received from a broker is never sent to any broker, so in any network of brokers with arbitrary (even inconsistent) routing tables a message published by a user crosses at most one broker-to-broker link, and publishing triggers only finitely many sends.", "quantifier": "every network topology, every combination of routing tables, every message, every schedule", "why_tests_cant": "loops need particular inconsistent tables over several brokers; unit tests have a single broker under test", "anchors": ["cdn-broker/src/tasks/broker/handler.rs:broker_receive_loop", "cdn-broker/src/tasks/broker/handler.rs:handle_direct_message", "cdn-broker/src/tasks/broker/handler.rs:handle_broadcast_message"]}
{"id": "C15", "title": "Brokers forward messages byte for byte", "statement": "Every copy a broker sends while handling a direct or broadcast message equals the received byte string, whatever the message hook does to its decoded copy.", "quantifier": "every byte string, every hook, every broker state", "why_tests_cant": "quantifies over all hooks and all message bytes", "anchors": ["cdn-broker/src/tasks/user/handler.rs:user_receive_loop", "cdn-broker/src/tasks/broker/handler.rs:broker_receive_loop", "cdn-proto/src/def.rs:MessageHookDef"]}
{"id": "C16", "title": "Topic pruning keeps exactly the valid topics", "statement": "A successful prune leaves exactly the valid ones among the supplied topics: the result is a subsequence of the input, contains the same set of valid topics and no invalid one, and repetitions of a topic that were adjacent in the input are reduced to one; prune fails exactly when no supplied topic is valid.", "quantifier": "every topic list, every topic type (any set of valid byte values)", "why_tests_cant": "256-ary lists of unbounded length and every topic enumeration", "anchors": ["cdn-proto/src/def.rs:Topic::prune"]}
{"id": "C17", "title": "Only well-behaved users keep their connection", "statement": "A user is disconnected by its receive loop exactly when a received frame fails to decode, the hook returns an error, a subscribe/unsubscribe/broadcast contains no valid topic, or the message is of a kind users may not send; after that no further frame of that connection has any effect; and a message skipped by the hook has no effect at all.", "quantifier": "every sequence of incoming frames, every hook, every broker state", "why_tests_cant": "unbounded frame sequences and arbitrary hooks", "anchors": ["cdn-broker/src/tasks/user/handler.rs:user_receive_loop"]}
{"id": "C18", "title": "Broadcast in a synchronised mesh is delivered exactly once to each subscriber", "statement": "In a full mesh of brokers whose topic interest is in sync, a broadcast published by any connected user is received exactly once by every user subscribed to at least one of its valid topics, on whichever broker they are, and by no other user - in every order in which the brokers process their links.", "quantifier": "every number of brokers and users, every subscription assignment, every topic list, every processing order", "why_tests_cant": "needs all mesh sizes and all schedules", "anchors": ["cdn-broker/src/tasks/user/handler.rs:user_receive_loop", "cdn-broker/src/tasks/broker/handler.rs:broker_receive_loop", "cdn-broker/src/tasks/broker/handler.rs:handle_broadcast_message"]}
{"id": "C19", "title": "Direct message in a synchronised mesh is delivered exactly once to its recipient", "statement": "In a full mesh whose user routing is in sync, a direct message sent by any connected user to a connected recipient is received exactly once by the recipient and by nobody else; to an unconnected recipient it is received by nobody.", "quantifier": "every number of brokers and users, every placement, every processing order", "why_tests_cant": "needs all mesh sizes, placements and schedules", "anchors": ["cdn-broker/src/tasks/user/handler.rs:user_receive_loop", "cdn-broker/src/tasks/broker/handler.rs:broker_receive_loop", "cdn-broker/src/tasks/broker/handler.rs:handle_direct_message"]}
{"id": "C20", "title": "Messages between two users are delivered in the order sent", "statement": "In a full mesh whose routing is in sync and does not change, the messages a recipient receives from one sender (direct and broadcast) form, in order, the sequence the sender sent to them: no reordering, duplication or loss, whatever the relative speed of the brokers and of other senders. Whatever the routing tables are and however they change, whatever the hooks do and whichever sends fail, as long as the sender and the recipient stay with their brokers, messages may be lost but are never reordered or duplicated.", "quantifier": "every schedule of sends and link deliveries, every number of senders and brokers", "why_tests_cant": "reordering would only show in particular schedules", "anchors": ["cdn-broker/src/tasks/user/handler.rs:user_receive_loop", "cdn-broker/src/tasks/broker/handler.rs:broker_receive_loop", "cdn-proto/src/connection/protocols/mod.rs:Connection"]}
{"id": "C21", "title": "Topic interest converges to the sender's real subscriptions", "statement": "After a broker connection is registered and the initial full sync plus any later partial syncs have been delivered - in any order and with duplicates - the receiving broker forwards topic t to the peer exactly when t was subscribed by at least one user of the peer at its last sync.", "quantifier": "every history of subscribe/unsubscribe/connect/disconnect at the peer, every interleaving with syncs, every delivery order and duplication", "why_tests_cant": "unbounded histories and delivery orders", "anchors": ["cdn-broker/src/connections/mod.rs:Connections::get_partial_topic_sync", "cdn-broker/src/connections/mod.rs:Connections::get_full_topic_sync", "cdn-broker/src/connections/mod.rs:Connections::apply_topic_sync", "cdn-broker/src/tasks/broker/sync.rs:partial_topic_sync", "cdn-broker/src/tasks/broker/sync.rs:full_topic_sync", "cdn-broker/src/tasks/broker/handler.rs:handle_broker_connection"]}
{"id": "C22", "title": "No topic sync is sent without a change", "statement": "get_partial_topic_sync returns a map only if the set of locally subscribed topics differs from the one at the previous call, and then it mentions exactly the topics added (as subscribed) and removed (as unsubscribed).", "quantifier": "every history of subscriptions and previous syncs", "why_tests_cant": "all histories, including topic removed and re-added between syncs", "anchors": ["cdn-broker/src/connections/mod.rs:Connections::get_partial_topic_sync"]}
{"id": "C23", "title": "User location converges when changes are propagated in turn", "statement": "If every connect or disconnect of a user is propagated to all brokers before that user's next change, then after each change every broker in the mesh routes the user to the broker they are connected to (or to none if disconnected), and a broker that still held an older connection of that user drops it.", "quantifier": "every number of brokers, every sequence of moves, connects and disconnects", "why_tests_cant": "unbounded sequences over any number of brokers; version restart after tombstone deletion only matters in long histories", "anchors": ["cdn-broker/src/connections/mod.rs:Connections::apply_user_sync", "cdn-broker/src/connections/mod.rs:Connections::get_partial_user_sync", "cdn-broker/src/connections/versioned_map.rs:VersionedMap::merge", "cdn-broker/src/connections/versioned_map.rs:VersionedMap::diff"]}
{"id": "C24", "title": "User location converges for every delivery schedule", "statement": "Once no more users connect or disconnect and all sync messages have been delivered, all brokers agree on where each user is, whatever the interleaving of connects, disconnects, diffs and deliveries.", "quantifier": "every history and every delivery schedule over reliable in-order links", "why_tests_cant": "schedule dependent by nature: it needs concurrent moves or late messages", "anchors": ["cdn-broker/src/connections/mod.rs:Connections::apply_user_sync", "cdn-broker/src/connections/versioned_map.rs:VersionedMap::merge", "cdn-broker/src/connections/versioned_map.rs:VersionedMap::diff", "cdn-broker/src/tasks/broker/sync.rs:full_user_sync"]}
{"id": "C25", "title": "Framing round-trips", "statement": "Writing any sequence of messages of at most the maximum size with the length-delimited writer and reading them back - however the byte stream is cut into pieces - yields exactly the same messages in the same order.", "quantifier": "every message sequence, every chunking of the stream", "why_tests_cant": "all contents, lengths and chunk boundaries", "anchors": ["cdn-proto/src/connection/protocols/mod.rs:write_length_delimited", "cdn-proto/src/connection/protocols/mod.rs:read_length_delimited", "cdn-proto/src/lib.rs:MAX_MESSAGE_SIZE"]}
{"id": "C26", "title": "Oversized frames are refused before any allocation", "statement": "A frame whose declared length exceeds the maximum message size ends the connection without reserving memory or reading its body; every message a reader hands out is at most the maximum size, and it reserves exactly the declared length.", "quantifier": "every byte stream a peer can send", "why_tests_cant": "peer-controlled, unbounded input space", "anchors": ["cdn-proto/src/connection/protocols/mod.rs:read_length_delimited"]}
{"id": "C27", "title": "Truncated streams never yield a message", "statement": "If the stream ends inside a frame, the reader hands out exactly the complete messages before it and then fails; no message is ever made of bytes of two frames.", "quantifier": "every message sequence and every truncation point (crash point of the sender)", "why_tests_cant": "every crash point", "anchors": ["cdn-proto/src/connection/protocols/mod.rs:read_length_delimited", "cdn-proto/src/connection/protocols/mod.rs:write_length_delimited"]}
{"id": "C28", "title": "Global memory budget is never exceeded", "statement": "With a configured pool of N bytes, the messages read from the network and still referenced anywhere total at most N bytes at every moment; the space of a message is given back exactly once, when its last clone is dropped; and when every message is dropped the whole pool is available again.", "quantifier": "every schedule of allocations, clones and drops by any number of connections", "why_tests_cant": "every interleaving of tasks and every sharing pattern", "anchors": ["cdn-proto/src/connection/limiter/pool.rs:MemoryPool", "cdn-proto/src/connection/limiter/pool.rs:Allocation", "cdn-proto/src/connection/limiter/mod.rs:Limiter", "cdn-proto/src/connection/protocols/mod.rs:read_length_delimited"]}
{"id": "C29", "title": "Every request for memory is eventually served", "statement": "With fair (first come first served) allocation, if every requested size is at most the pool size and every handed-out message is eventually dropped, every waiting reader is eventually served; requests for at least one byte are served in the order in which they were made.", "quantifier": "every queue of waiting readers and every pool state", "why_tests_cant": "liveness over all schedules", "anchors": ["cdn-proto/src/connection/limiter/pool.rs:MemoryPool::alloc", "cdn-proto/src/connection/limiter/mod.rs:Limiter::allocate_message_bytes"]}
{"id": "C30", "title": "Wire messages round-trip", "statement": "For every message value, deserialize(serialize(m)) = m; hence serialization is injective and different kinds of message are never confused.", "quantifier": "every message of every kind with contents of any length", "why_tests_cant": "all byte contents and lengths", "anchors": ["cdn-proto/src/message.rs:Message::serialize", "cdn-proto/src/message.rs:Message::deserialize", "cdn-proto/schema/messages.capnp"]}
{"id": "C31", "title": "Decoding arbitrary bytes never goes wrong", "statement": "deserialize on arbitrary bytes either fails or returns a message; data fields in a returned message are sub-slices of the received bytes, so no field is longer than the input and none contains bytes that were not received.", "quantifier": "every byte string", "why_tests_cant": "all byte strings", "anchors": ["cdn-proto/src/message.rs:Message::deserialize"]}
{"id": "C32", "title": "A user can only connect with an unused, unexpired permit issued for that broker", "statement": "A broker accepts a user with key k only if earlier the discovery store issued that permit number for k and this broker, no connection attempt has redeemed it since, and it has not expired; and the accepted key is the one it was issued for.", "quantifier": "every history of issuing, validation attempts, expiry and clock advance over any number of brokers and users", "why_tests_cant": "all histories and interleavings of several brokers against the shared store", "anchors": ["cdn-proto/src/connection/auth/broker.rs:BrokerAuth::verify_user", "cdn-proto/src/discovery/embedded.rs:Embedded::validate_permit", "cdn-proto/src/discovery/embedded.rs:Embedded::issue_permit", "cdn-proto/src/discovery/redis.rs:Redis::validate_permit", "cdn-proto/src/discovery/redis.rs:Redis::issue_permit"]}
{"id": "C33", "title": "Permits are single use", "statement": "Between two issuances of the same permit number at most one validation of it succeeds, over all brokers sharing the store (with Redis without global permits: at each broker, since there a number is scoped by the broker it was issued for). A permit number is never redeemed more often than it was issued. A failed attempt at the wrong broker does not burn the permit.", "quantifier": "every history of store operations by any number of brokers and marshals", "why_tests_cant": "all histories, including concurrent attempts", "anchors": ["cdn-proto/src/discovery/embedded.rs:Embedded::validate_permit", "cdn-proto/src/discovery/redis.rs:Redis::validate_permit"]}
{"id": "C34", "title": "The marshal issues permits only for fresh, valid, whitelisted credentials", "statement": "The marshal issues a permit only when the presented signature verifies under the presented key over the presented timestamp in the user-marshal namespace, the timestamp is not in the future and at most five seconds old, and the key is whitelisted; in all other cases it answers with a failure and changes nothing in the store.", "quantifier": "every authentication message, every clock value, every store state, every signature scheme behaviour", "why_tests_cant": "all messages, clock values and stores", "anchors": ["cdn-proto/src/connection/auth/marshal.rs:MarshalAuth::verify_user"]}
{"id": "C35", "title": "The key a permit is stored under is the key that was verified and whitelisted", "statement": "The public key a broker later uses for a user admitted with a permit is the very key whose signature was verified and which was looked up in the whitelist.", "quantifier": "every authentication message, including non-canonical key encodings", "why_tests_cant": "all encodings of keys, not only those the serializer produces", "anchors": ["cdn-proto/src/connection/auth/marshal.rs:MarshalAuth::verify_user", "cdn-proto/src/connection/auth/broker.rs:BrokerAuth::verify_user"]}
{"id": "C36", "title": "Honest authentication always succeeds end to end", "statement": "An honest client with a whitelisted key whose clock agrees with the marshal's to within five seconds (not ahead), talking to an honest marshal and then to the broker the marshal named, ends up connected to that broker under its own key with exactly the topics it asked for.", "quantifier": "every key, topic list, store state with at least one live broker, every permit number drawn", "why_tests_cant": "composition of four protocol roles over all inputs, including the drawn random permit", "anchors": ["cdn-proto/src/connection/auth/user.rs:UserAuth::authenticate_with_marshal", "cdn-proto/src/connection/auth/user.rs:UserAuth::authenticate_with_broker", "cdn-proto/src/connection/auth/marshal.rs:MarshalAuth::verify_user", "cdn-proto/src/connection/auth/broker.rs:BrokerAuth::verify_user"]}
{"id": "C37", "title": "Brokers accept only peers holding the shared broker key", "statement": "verify_broker succeeds only if the peer presented the broker's own public key with a signature valid under it in the broker-broker namespace over a timestamp not in the future and at most five seconds old.", "quantifier": "every authentication message, clock value and scheme behaviour", "why_tests_cant": "all messages and clocks", "anchors": ["cdn-proto/src/connection/auth/broker.rs:BrokerAuth::verify_broker"]}
{"id": "C38", "title": "A signature made for one purpose is useless for another", "statement": "The byte string signed for user-marshal authentication never equals one signed for broker-broker authentication, and within one purpose different timestamps are signed as different byte strings, so a captured signature cannot be used in the other protocol or with another timestamp.", "quantifier": "all timestamps and all messages", "why_tests_cant": "all message pairs", "anchors": ["cdn-proto/src/crypto/signature.rs:Namespace", "cdn-proto/src/crypto/signature.rs:KeyPair::sign", "cdn-proto/src/connection/auth/marshal.rs:MarshalAuth::verify_user", "cdn-proto/src/connection/auth/broker.rs:BrokerAuth::authenticate_with_broker"]}
{"id": "C39", "title": "The least-loaded live broker is chosen", "statement": "get_with_least_connections returns a broker whose heartbeat has not expired and whose reported users plus outstanding permits are minimal among all live brokers, whenever a live broker exists; otherwise it fails.", "quantifier": "every store content and clock value", "why_tests_cant": "all stores", "anchors": ["cdn-proto/src/discovery/embedded.rs:Embedded::get_with_least_connections", "cdn-proto/src/discovery/redis.rs:Redis::get_with_least_connections"]}
{"id": "C40", "title": "Liveness listing is exactly the unexpired heartbeats", "statement": "After any history of heartbeats and clock advance, the other brokers listed are exactly the ones whose last heartbeat has not expired, excluding the caller; the reported load is the one of the last heartbeat.", "quantifier": "every history of heartbeats by any number of brokers", "why_tests_cant": "all histories and clock values", "anchors": ["cdn-proto/src/discovery/embedded.rs:Embedded::perform_heartbeat", "cdn-proto/src/discovery/embedded.rs:Embedded::get_other_brokers", "cdn-proto/src/discovery/redis.rs:Redis::perform_heartbeat", "cdn-proto/src/discovery/redis.rs:Redis::get_other_brokers"]}
{"id": "C41", "title": "Whitelist semantics", "statement": "With no whitelist configured everyone is allowed; after set_whitelist(ks) succeeds a key is allowed exactly when it is in ks, replacing any earlier whitelist.", "quantifier": "every sequence of set_whitelist calls, every list of keys", "why_tests_cant": "all lists including empty and repeating ones", "anchors": ["cdn-proto/src/discovery/embedded.rs:Embedded::set_whitelist", "cdn-proto/src/discovery/embedded.rs:Embedded::check_whitelist", "cdn-proto/src/discovery/redis.rs:Redis::set_whitelist", "cdn-proto/src/discovery/redis.rs:Redis::check_whitelist"]}
{"id": "C42", "title": "Broker identifiers survive their text form", "statement": "Parsing the displayed form of a broker identifier gives the identifier back, and two identifiers with the same displayed form are equal, provided endpoints contain no slash; parsing fails exactly when the text has no slash.", "quantifier": "every pair of endpoint strings", "why_tests_cant": "all strings", "anchors": ["cdn-proto/src/discovery/mod.rs:BrokerIdentifier", "cdn-proto/src/connection/auth/broker.rs:BrokerAuth::authenticate_with_broker"]}
{"id": "C43", "title": "Exactly one side of every broker pair dials", "statement": "For any two different live brokers that see each other in discovery and are not connected, exactly one of them dials the other at its heartbeat; a broker never dials a connected peer, and a fully connected mesh stays without dialling.", "quantifier": "every pair of identifiers, every discovery answer, every connection state", "why_tests_cant": "all identifier pairs (lexicographic order of two strings) and all sets", "anchors": ["cdn-broker/src/tasks/broker/heartbeat.rs:run_heartbeat_task", "cdn-proto/src/discovery/mod.rs:BrokerIdentifier"]}
{"id": "C44", "title": "The whitelist task kicks exactly the users no longer whitelisted", "statement": "One run of the whitelist task disconnects every connected user whose key the store reports as not whitelisted and no other user; store errors never disconnect anyone.", "quantifier": "every set of connected users, every store answer per user (including errors)", "why_tests_cant": "all stores and failure patterns", "anchors": ["cdn-broker/src/tasks/broker/whitelist.rs:run_whitelist_task"]}
{"id": "C45", "title": "A closed client stays closed", "statement": "After close() has returned, every later client operation fails with an error, no new connection is ever made, and is_closed() stays true.", "quantifier": "every history of operations before and after close, every outcome of connection attempts", "why_tests_cant": "all histories and schedules of the background reconnection", "anchors": ["cdn-client/src/lib.rs:Client::close", "cdn-client/src/lib.rs:Client::is_closed", "cdn-client/src/lib.rs:Client::get_connection", "cdn-client/src/lib.rs:ClientRef::connect"]}
{"id": "C46", "title": "Reconnection restores the subscriptions the application asked for", "statement": "Whenever the client (re)connects, the topics it authenticates with are exactly those it was created with plus every successfully subscribed and minus every successfully unsubscribed topic so far, so after a reconnect the broker-side subscription equals the application's view.", "quantifier": "every history of subscribe/unsubscribe calls, failures and reconnects", "why_tests_cant": "all histories and failure points", "anchors": ["cdn-client/src/lib.rs:Client::subscribe", "cdn-client/src/lib.rs:Client::unsubscribe", "cdn-client/src/lib.rs:ClientRef::connect"]}
{"id": "C47", "title": "At most one reconnection attempt at a time", "statement": "However many tasks use the client concurrently, at any moment at most one reconnection task exists and a connection stored in the client is never replaced by a reconnection while it is still stored (a reconnection starts only when there is none).", "quantifier": "every interleaving of concurrent operations, failures and reconnections", "why_tests_cant": "all interleavings", "anchors": ["cdn-client/src/lib.rs:Client::reconnect_if_needed", "cdn-client/src/lib.rs:Client::get_connection", "cdn-client/src/lib.rs:Client::try_get_connection"]}
{"id": "C48", "title": "Repeating a subscription is harmless", "statement": "Calling subscribe with topics that are already subscribed, or unsubscribe with topics that are not subscribed, leaves the connection up and the subscriptions unchanged.", "quantifier": "every client and broker state, every topic list", "why_tests_cant": "composition of client bookkeeping and broker handling over all states", "anchors": ["cdn-client/src/lib.rs:Client::subscribe", "cdn-client/src/lib.rs:Client::unsubscribe", "cdn-broker/src/tasks/user/handler.rs:user_receive_loop", "cdn-proto/src/def.rs:Topic::prune"]}
{"id": "C49", "title": "An old connection's failure does not affect the user's new connection", "statement": "When a user reconnects, the late failure or end of the previous connection's receive loop or a failed send on it never removes the new connection or its subscriptions.", "quantifier": "every interleaving of the old connection's tasks with the reconnect", "why_tests_cant": "pure schedule property", "anchors": ["cdn-broker/src/tasks/user/handler.rs:handle_user_connection", "cdn-broker/src/tasks/user/sender.rs:try_send_to_user", "cdn-broker/src/connections/mod.rs:Connections::remove_user", "cdn-broker/src/connections/mod.rs:Connections::add_user"]}
{"id": "C50", "title": "Soft close flushes everything sent before it", "statement": "When soft_close returns successfully, every message handed to the connection before it was written to the stream, in the order they were submitted, before the acknowledgement.", "quantifier": "every sequence of submitted messages and every schedule of the sender task", "why_tests_cant": "all schedules of the background sender", "anchors": ["cdn-proto/src/connection/protocols/mod.rs:Connection::soft_close", "cdn-proto/src/connection/protocols/mod.rs:Connection::send_message_raw", "cdn-proto/src/connection/protocols/mod.rs:Connection::from_streams"]}
{"id": "C51", "title": "A failure on an old client connection does not drop the new one", "statement": "When an operation that was using an earlier connection fails after the client has already reconnected, the new connection is kept.", "quantifier": "every interleaving of concurrent client operations, failures and reconnections", "why_tests_cant": "pure schedule property", "anchors": ["cdn-client/src/lib.rs:disconnect_on_error", "cdn-client/src/lib.rs:Client::send_message", "cdn-client/src/lib.rs:Client::receive_message"]}
{"id": "C52", "title": "A subscription sent right after connecting takes effect", "statement": "Every subscribe message a user sends after authentication and which the broker processes is in force afterwards, together with the topics given at authentication, as long as the user stays connected and does not unsubscribe.", "quantifier": "every interleaving of the connection's registration with its receive loop", "why_tests_cant": "pure schedule property: the receive loop starts before the registration", "anchors": ["cdn-broker/src/tasks/user/handler.rs:handle_user_connection", "cdn-broker/src/tasks/user/handler.rs:user_receive_loop", "cdn-broker/src/connections/mod.rs:Connections::add_user"]}
{"id": "C53", "title": "A topic sync sent right after broker authentication is not lost", "statement": "When two brokers connect, the initial full topic sync a broker receives is applied, so its interest table for the peer includes all topics the peer announced.", "quantifier": "every interleaving of the connection's registration with its receive loop", "why_tests_cant": "pure schedule property: the receive loop starts before the registration", "anchors": ["cdn-broker/src/tasks/broker/handler.rs:handle_broker_connection", "cdn-broker/src/tasks/broker/handler.rs:broker_receive_loop", "cdn-broker/src/connections/mod.rs:Connections::apply_topic_sync", "cdn-broker/src/connections/mod.rs:Connections::add_broker"]}
{"id": "C54", "title": "ensure_initialized means connected", "statement": "When ensure_initialized returns success the client has (or had since the call) an established connection.", "quantifier": "every interleaving with other operations, failures, reconnections and close", "why_tests_cant": "pure schedule property", "anchors": ["cdn-client/src/lib.rs:Client::ensure_initialized"]}
{"id": "C55", "title": "Outstanding permits count as load with the Redis backend", "statement": "With Redis discovery, a broker for which permits were issued and not yet redeemed is considered more loaded by that number when the least-loaded broker is selected.", "quantifier": "every store content", "why_tests_cant": "all stores", "anchors": ["cdn-proto/src/discovery/redis.rs:Redis::get_with_least_connections", "cdn-proto/src/discovery/redis.rs:Redis::issue_permit"]}
{"id": "C56", "title": "An empty whitelist admits nobody", "statement": "After set_whitelist with an empty list, check_whitelist rejects every key.", "quantifier": "every earlier store state, every key", "why_tests_cant": "all store states", "anchors": ["cdn-proto/src/discovery/redis.rs:Redis::set_whitelist", "cdn-proto/src/discovery/redis.rs:Redis::check_whitelist", "cdn-proto/src/discovery/embedded.rs:Embedded::set_whitelist", "cdn-proto/src/discovery/embedded.rs:Embedded::check_whitelist"]}
{"id": "C57", "title": "A failed whitelist update changes nothing", "statement": "If set_whitelist returns an error the previously effective whitelist is still in force.", "quantifier": "every earlier store state, every list of keys", "why_tests_cant": "all lists, including repeating and empty ones", "anchors": ["cdn-proto/src/discovery/embedded.rs:Embedded::set_whitelist"]}
{"id": "C58", "title": "Redis permit keys do not collide", "statement": "The storage keys used for permits and for broker load are different for different (broker, permit) pairs and never coincide with one another, so no broker can redeem or overwrite another broker's permit.", "quantifier": "all broker identifiers and permit numbers", "why_tests_cant": "all strings", "anchors": ["cdn-proto/src/discovery/redis.rs:Redis::issue_permit", "cdn-proto/src/discovery/redis.rs:Redis::validate_permit", "cdn-proto/src/discovery/redis.rs:Redis::perform_heartbeat", "cdn-proto/src/discovery/mod.rs:BrokerIdentifier"]}
{"id": "C59", "title": "Subscribing clients do not deadlock with reconnection", "statement": "No interleaving of subscribe, unsubscribe, send, receive and the reconnection task can reach a state in which each waits for a lock held by another.", "quantifier": "every interleaving of any number of client operations and the reconnection task", "why_tests_cant": "deadlocks need particular interleavings", "anchors": ["cdn-client/src/lib.rs:Client::subscribe", "cdn-client/src/lib.rs:Client::unsubscribe", "cdn-client/src/lib.rs:Client::try_get_connection", "cdn-client/src/lib.rs:ClientRef::connect"]}
{"id": "C60", "title": "Reflected or replayed broker authentication is refused", "statement": "A broker authentication message is accepted at most once, and never by the broker that produced it.", "quantifier": "every history of authentication messages", "why_tests_cant": "adversarial histories", "anchors": ["cdn-proto/src/connection/auth/broker.rs:BrokerAuth::verify_broker", "cdn-proto/src/connection/auth/broker.rs:BrokerAuth::authenticate_with_broker"]}
{"id": "C61", "title": "Updating the whitelist is atomic", "statement": "While a whitelist update from one list to another is in progress, a key that is in neither list is refused, and a key that is in both is allowed, at every moment.", "quantifier": "every pair of whitelists, every key, every moment at which another process asks", "why_tests_cant": "the window between two statements is not hit by a sequential test", "anchors": ["cdn-proto/src/discovery/embedded.rs:Embedded::set_whitelist", "cdn-proto/src/discovery/embedded.rs:Embedded::check_whitelist", "cdn-proto/src/discovery/redis.rs:Redis::set_whitelist", "cdn-proto/src/discovery/redis.rs:Redis::check_whitelist"]}
{"id": "C62", "title": "Nobody is admitted without proving possession of a whitelisted key", "statement": "If a broker admits a connection as public key k, then earlier some marshal received a message with the bytes k, a signature over its timestamp in the user-to-marshal namespace that verifies under the key k denotes, a timestamp at most five seconds old, found that key whitelisted, was named a broker, and issued for k the permit on which the connection was admitted (to that broker, unless permits are global).", "quantifier": "every interleaving of any number of marshals, brokers, clients and attackers with one discovery store, for both backends", "why_tests_cant": "the guarantee spans several processes and all their interleavings", "anchors": ["cdn-proto/src/connection/auth/marshal.rs:MarshalAuth::verify_user", "cdn-proto/src/connection/auth/broker.rs:BrokerAuth::verify_user", "cdn-proto/src/discovery/redis.rs:Redis::validate_permit", "cdn-proto/src/discovery/embedded.rs:Embedded::validate_permit"]}
{"id": "C63", "title": "Two brokers with slightly different clocks connect to each other", "statement": "Two honest brokers that hold the same key pair and whose clocks differ by less than the five seconds of tolerance always complete the handshake, and then each knows the other by its identity.", "quantifier": "every interleaving of the two sides of the handshake, all identities, all clock readings", "why_tests_cant": "tests run both brokers on one machine with one clock", "anchors": ["cdn-proto/src/connection/auth/broker.rs:BrokerAuth::verify_broker", "cdn-proto/src/connection/auth/broker.rs:BrokerAuth::authenticate_with_broker", "cdn-broker/src/tasks/broker/handler.rs:Inner::handle_broker_connection"]}
{"id": "C64", "title": "A connection that has ended is not kept as connected", "statement": "Once the broker has stopped reading from a connection, that connection is no longer listed: the user or broker is not shown as connected through it, and nothing is routed to it.", "quantifier": "every interleaving of the connection's handler, its receive task and everything else in the broker", "why_tests_cant": "pure schedule property: the receive task can end before the connection is registered", "anchors": ["cdn-broker/src/tasks/user/handler.rs:handle_user_connection", "cdn-broker/src/tasks/broker/handler.rs:handle_broker_connection", "cdn-broker/src/connections/mod.rs:Connections::add_user", "cdn-broker/src/connections/mod.rs:Connections::remove_user"]}
{"id": "C65", "title": "Interest is announced only for topics with a connected subscriber", "statement": "Every topic that a broker announces to its peers as subscribed is one that some user connected to that broker is subscribed to at that moment.", "quantifier": "every interleaving of connections, subscriptions, removals and synchronisation", "why_tests_cant": "needs a subscription handled between the removal of a user and the abort of its task taking effect", "anchors": ["cdn-broker/src/connections/mod.rs:Connections::get_partial_topic_sync", "cdn-broker/src/connections/mod.rs:Connections::subscribe_user_to", "cdn-broker/src/connections/mod.rs:Connections::remove_user", "cdn-broker/src/tasks/user/handler.rs:user_receive_loop"]}
{"id": "C66", "title": "A replaced connection has no further effect", "statement": "After a user's connection was replaced by a newer one or removed, nothing that arrives on the old connection changes the state of the broker any more; at any moment at most one connection of a user is active.", "quantifier": "every interleaving of any number of connections of the same user", "why_tests_cant": "abort takes effect only when the aborted task next suspends", "anchors": ["cdn-broker/src/connections/mod.rs:Connections::add_user", "cdn-broker/src/connections/mod.rs:Connections::remove_user", "cdn-broker/src/tasks/user/handler.rs:handle_user_connection", "cdn-broker/src/tasks/user/handler.rs:user_receive_loop"]}
{"id": "C67", "title": "What happens to one user is independent of the others", "statement": "At any broker, whether a user is connected and on which connection, to which broker it is routed and which topics it receives is the same as if no other user had ever connected, left, been removed, subscribed or unsubscribed.", "quantifier": "every history of table operations (connects, disconnects, kicks, subscriptions, user and topic syncs, broker connects and disconnects), every user", "why_tests_cant": "needs comparison of every history with its projection to one user", "anchors": ["cdn-broker/src/connections/mod.rs"]}
{"id": "C68", "title": "close() of a client returns", "statement": "A call of close() returns (its documentation: blocks at most two seconds), whatever other calls are in progress and whatever the network does.", "quantifier": "every interleaving of close with other calls and the reconnection task, every outcome of connection attempts", "why_tests_cant": "hangs need a particular interleaving of a spawning call and close", "anchors": ["cdn-client/src/lib.rs:Client::close", "cdn-client/src/lib.rs:Client::reconnect_if_needed"]}
{"id": "C69", "title": "Messages sent over a connection are the messages received", "statement": "If one side of a connection sends messages m1, m2, ... (send_message), then at every moment what the other side has received (recv_message) decodes without an error to the first k of them, in order, for some k; without failures, and if each is small enough, to all of them once nothing is in flight.", "quantifier": "every sequence of messages, every interleaving of the tasks on both ends, every chunking of the byte stream and every failure", "why_tests_cant": "all messages, all interleavings, all ways the stream can be cut", "anchors": ["cdn-proto/src/message.rs:Message::serialize", "cdn-proto/src/message.rs:Message::deserialize", "cdn-proto/src/connection/protocols/mod.rs:write_length_delimited", "cdn-proto/src/connection/protocols/mod.rs:read_length_delimited"]}
{"id": "C70", "title": "Peers that misbehave or cannot be reached are disconnected, and only they", "statement": "The receive loop of a connection ends because of a frame exactly if the frame does not decode, the message hook returns an error, a user sent something users may not send (or without a valid topic), or a broker sent a sync that does not decode. A peer whose loop ended, to which a send failed, or which is no longer whitelisted can then always be removed; after that no connection is listed for it, its receive task is cancelled, and every other peer keeps its connection.", "quantifier": "every broker state, every frame, every hook, every configuration of valid topics, every interleaving of the tasks of all connections", "why_tests_cant": "all frames in all states of all sessions", "anchors": ["cdn-broker/src/tasks/user/handler.rs:user_receive_loop", "cdn-broker/src/tasks/broker/handler.rs:broker_receive_loop", "cdn-broker/src/tasks/user/sender.rs:try_send_to_user", "cdn-broker/src/tasks/broker/sender.rs:try_send_to_broker", "cdn-broker/src/connections/mod.rs:remove_user", "cdn-broker/src/connections/mod.rs:remove_broker"]}
{"id": "C71", "title": "Brokers know exactly which topics their neighbours' users want, whatever the links do", "statement": "Links between brokers come up, fail at one end or both and come back, brokers crash and are started again, users come, go and change topics, and syncs are computed, sent and received concurrently. Whenever two brokers have each other registered, and all that one has to say about topics has been said and has arrived, the other forwards messages on a topic to it exactly if one of its users is subscribed to that topic. Syncs alone always lead to such a state.", "quantifier": "every schedule of connections, subscriptions, links, failures, crashes and sync steps of any number of brokers (fewer than 2^63 steps), every topic", "why_tests_cant": "unbounded interleavings of concurrent syncs and link failures", "anchors": ["cdn-broker/src/tasks/broker/sync.rs:partial_topic_sync", "cdn-broker/src/tasks/broker/sync.rs:full_topic_sync", "cdn-broker/src/connections/mod.rs:apply_topic_sync", "cdn-broker/src/tasks/broker/handler.rs:handle_broker_connection", "cdn-broker/src/tasks/broker/sender.rs:try_send_to_broker"]}
{"id": "C72", "title": "After the mesh has calmed down, every broadcast reaches every subscriber exactly once", "statement": "Whatever happened before (links failing, brokers crashing and being started again, users moving, syncs overtaking each other): once the brokers of a group are linked with one another and no others, their topic syncs have arrived and no user is connected twice, a broadcast published at any of them is received exactly once by every user connected in the group and subscribed to one of its topics, and by nobody else.", "quantifier": "every history, every group of brokers, every schedule of the receive loops afterwards, every message and user", "why_tests_cant": "composition of unbounded histories of syncs with unbounded schedules of routing", "anchors": ["cdn-broker/src/tasks/broker/handler.rs:broker_receive_loop", "cdn-broker/src/tasks/user/handler.rs:user_receive_loop", "cdn-broker/src/tasks/broker/sync.rs:partial_topic_sync", "cdn-broker/src/connections/mod.rs:get_interested_by_topic"]}
{"id": "C73", "title": "A user who stays connected to one broker is not disconnected by the brokers' talk among themselves", "statement": "A user who connects to one broker, and nowhere else, keeps that connection until it fails or is closed or the broker crashes, whatever links between brokers come and go, whichever other brokers are restarted and in whatever order syncs are exchanged.", "quantifier": "every schedule of any number of brokers in which this user connects once", "why_tests_cant": "needs all orders of initial and partial syncs between all brokers", "anchors": ["cdn-broker/src/connections/mod.rs:apply_user_sync", "cdn-broker/src/connections/versioned_map.rs:merge", "cdn-broker/src/tasks/broker/sync.rs:full_user_sync", "cdn-broker/src/tasks/broker/handler.rs:handle_broker_connection"]}
{"id": "C74", "title": "Linked brokers that have told each other everything agree where users are", "statement": "When two brokers are linked and have nothing left to tell each other about users, each knows the users connected to the other as being there. In particular they agree on every user once the user has come to rest.", "quantifier": "every schedule of any number of brokers, users, links, crashes and concurrent syncs", "why_tests_cant": "depends on the order in which concurrent syncs overtake each other and on links of third brokers", "anchors": ["cdn-broker/src/tasks/broker/sync.rs:partial_user_sync", "cdn-broker/src/tasks/broker/sync.rs:full_user_sync", "cdn-broker/src/connections/mod.rs:apply_user_sync", "cdn-broker/src/connections/mod.rs:remove_broker", "cdn-broker/src/connections/versioned_map.rs:diff"]}
{"id": "C75", "title": "Direct messages find users who move between brokers", "statement": "In a mesh whose brokers are all linked, users connect, move to other brokers and leave, the changes of each user one after the other, different users at the same time, with concurrent syncs. Once everything has been announced and has arrived, a direct message published at any broker is received exactly once by its recipient, at the broker they connected to last, and by nobody else; if the recipient is not connected, by nobody.", "quantifier": "every history of links before users come, every interleaving of the changes and syncs, every schedule of the receive loops, every message", "why_tests_cant": "unbounded histories of moves, interleaved with syncs and routing of several brokers", "anchors": ["cdn-broker/src/tasks/broker/handler.rs:broker_receive_loop", "cdn-broker/src/tasks/user/handler.rs:user_receive_loop", "cdn-broker/src/tasks/broker/sync.rs:partial_user_sync", "cdn-broker/src/connections/mod.rs:get_broker_identifier_of_user", "cdn-broker/src/connections/mod.rs:apply_user_sync"]}
{"id": "C76", "title": "An in-memory connection has the same two parties at both ends", "statement": "When a call of the in-memory transport's connect returns a connection, what is written to it arrives at the connection that one accept of the listener returned, and what is read from it was written to that same accepted connection.", "quantifier": "every interleaving of connect, bind, accept calls of one process, including calls given up half-way and listeners that are dropped", "why_tests_cant": "needs the orders in which concurrent connects take their turn; a test that connects once sees the right pairing", "anchors": ["cdn-proto/src/connection/protocols/memory.rs:connect", "cdn-proto/src/connection/protocols/memory.rs:accept", "cdn-proto/src/connection/protocols/memory.rs:bind"]}
{"id": "C77", "title": "Calls of connect and bind on the in-memory transport return", "statement": "A call of connect or bind on the in-memory transport returns, whatever other endpoints are being bound or connected to in the same process.", "quantifier": "every reachable state of the process's listener table, every set of calls in progress", "why_tests_cant": "depends on a lock held across an await by a call that waits for somebody who waits for the lock", "anchors": ["cdn-proto/src/connection/protocols/memory.rs:connect", "cdn-proto/src/connection/protocols/memory.rs:bind", "cdn-proto/src/connection/protocols/memory.rs:accept", "cdn-broker/src/lib.rs:new"]}
{"id": "C78", "title": "A running broker stays listed, and its reported load is recent", "statement": "From its first successful heartbeat on, a broker that keeps running is shown to all other brokers by discovery at every moment, provided that no two of its heartbeats in a row fail and that the runtime does not delay it by more than two seconds each time it is due; and the load on record was read at most one minute ago (25 seconds if no heartbeat fails and nothing is delayed). A broker that has stopped is not shown any more after 60 seconds.", "quantifier": "every timing of the heartbeat loops of any number of brokers within their timeouts, with any other use of the store in between", "why_tests_cant": "depends on the sum of timeouts, sleeps and expiries over unboundedly many rounds; a test runs a few rounds with an idle store", "anchors": ["cdn-broker/src/tasks/broker/heartbeat.rs:run_heartbeat_task", "cdn-proto/src/discovery/embedded.rs:perform_heartbeat", "cdn-proto/src/discovery/redis.rs:perform_heartbeat", "cdn-proto/src/discovery/embedded.rs:get_other_brokers", "cdn-proto/src/discovery/redis.rs:get_other_brokers"]}
{"id": "C79", "title": "Brokers find each other in time", "statement": "Of two running brokers that have performed a heartbeat, the one with the lesser identity, unless it is connected to the other already, starts connecting to it within 25 seconds (plus what the runtime delays it), as long as the store answers its listings and the other one's heartbeats do not fail twice in a row.", "quantifier": "every timing of the heartbeat loops of any number of brokers", "why_tests_cant": "depends on where in its loop the one broker is when the other appears, for all timings of calls, timeouts and sleeps", "anchors": ["cdn-broker/src/tasks/broker/heartbeat.rs:run_heartbeat_task", "cdn-proto/src/discovery/mod.rs:BrokerIdentifier", "cdn-proto/src/discovery/embedded.rs:get_other_brokers", "cdn-proto/src/discovery/redis.rs:get_other_brokers"]}
{"id": "C80", "title": "Users receive only what users published, unchanged, and only what is meant for them", "statement": "Whatever happens to routing tables, links and sends (tables may be stale or wrong, sends may fail, frames may be lost): every frame a user receives was published, byte for byte, by the user it is attributed to. It is a direct message addressed to the receiver, or a broadcast on a topic the receiver was subscribed to at some broker at some moment. In particular a direct message is never received by anybody but its recipient, and brokers invent no messages. (With a message hook that rewrites messages only the first part holds: bytes are still forwarded unchanged. Brokers are assumed to send each other nothing of their own but user and topic syncs.)", "quantifier": "All numbers of brokers and users, all tables at the start, all schedules including arbitrary table changes and failing sends, all frames; all hooks for the first part", "why_tests_cant": "A test has one topology and one schedule; misdelivery would come from a combination of stale tables and interleavings.", "anchors": ["cdn-broker/src/tasks/broker/handler.rs:broker_receive_loop", "cdn-broker/src/tasks/broker/handler.rs:handle_direct_message", "cdn-broker/src/tasks/broker/handler.rs:handle_broadcast_message", "cdn-broker/src/tasks/user/handler.rs:user_receive_loop", "cdn-broker/src/tasks/broker/sender.rs:try_send_to_brokers"]}
{"id": "C81", "title": "End to end, messages read are the messages written", "statement": "In a mesh of brokers at rest (all links up, tables in sync, no-op hooks), with the real wire format: when a user sends a broadcast whose encoding is short enough to be received, every connected user subscribed to one of its valid topics reads exactly that message, once, and nobody else reads anything; a direct message is read, once, by its recipient if connected and by nobody else. The messages one user reads from another are at every moment a prefix of the messages for them that the other wrote, in the order written, and in the end all of them.", "quantifier": "All sizes of the mesh, all users, messages and ways of dividing an encoding into segments, all schedules without failures", "why_tests_cant": "It concerns every message and every interleaving, across serialisation, routing at two brokers and deserialisation.", "anchors": ["cdn-proto/src/message.rs:serialize", "cdn-proto/src/message.rs:deserialize", "cdn-broker/src/tasks/broker/handler.rs:handle_broadcast_message", "cdn-broker/src/tasks/broker/handler.rs:handle_direct_message", "cdn-client/src/lib.rs:receive_message", "cdn-client/src/lib.rs:send_broadcast_message"]}
{"id": "C82", "title": "A user who stops reading does not stop the others", "statement": "A user (or broker) that stays connected but no longer reads what it is sent does not keep a broker from serving the others: messages from other users continue to be received, routed and delivered, and other users can still log in. In particular memory that is taken by messages for a peer to which writing has failed comes free again.", "quantifier": "All pool sizes, numbers of connections, message sizes, destinations and interleavings of receiver tasks, receive loops, sender tasks and releases of memory", "why_tests_cant": "Needs a global memory pool that is exhausted by a backlog, at the same time as every other connection wants memory; the outcome is that nothing happens any more, which a test with a timeout cannot tell from slowness.", "anchors": ["cdn-proto/src/connection/protocols/mod.rs:from_streams", "cdn-proto/src/connection/protocols/mod.rs:read_length_delimited", "cdn-proto/src/connection/protocols/mod.rs:write_length_delimited", "cdn-proto/src/connection/limiter/mod.rs:allocate_message_bytes", "cdn-broker/src/tasks/user/sender.rs:try_send_to_user", "cdn-broker/src/tasks/user/handler.rs:user_receive_loop"]}
{"id": "C83", "title": "Listing and choosing brokers works whatever endpoints are advertised", "statement": "Whatever strings brokers advertise as their public and private endpoints (including ones with slashes, empty ones, or ones that read like another broker's), and whatever was stored before: asking the store for the other brokers returns a list and neither fails nor panics, and asking for the least loaded broker returns one from the moment a broker has sent a heartbeat until that heartbeat expires. One broker with odd endpoints cannot keep the others from finding each other or a marshal from placing users.", "quantifier": "For all histories of heartbeats, expiries, permits issued and taken and whitelist changes, all endpoint strings, all numbers of connections that fit the type, with and without global permits, and both stores.", "why_tests_cant": "The store keeps the two endpoints as one text with a slash between them and splits the text again when it answers; the Embedded store unwraps the result of splitting. Tests advertise a few well-formed endpoints; that splitting can never fail on what any heartbeat stored, and that the search for the minimum always ends with a broker, are statements about all texts and all histories.", "anchors": ["cdn-proto/src/discovery/embedded.rs:get_other_brokers", "cdn-proto/src/discovery/embedded.rs:get_with_least_connections", "cdn-proto/src/discovery/redis.rs:get_other_brokers", "cdn-proto/src/discovery/redis.rs:get_with_least_connections", "cdn-proto/src/discovery/mod.rs:BrokerIdentifier"]}
{"id": "C84", "title": "Connections do not stop a broker or a marshal", "statement": "Whatever peers do with their connections (connect and say nothing, fail the handshake, fail authentication, disconnect), the broker and the marshal keep running and keep accepting connections: start() does not return.", "quantifier": "For all numbers of descriptors the process may have, all sets of keys that can authenticate, all sequences of connections, handshakes, authentications, failures and passing time.", "why_tests_cant": "Tests open a handful of connections. Whether start() can return depends on how many connections can be open at once, hence on the timeouts, on the rate at which peers connect, and on what happens when the operating system refuses another connection; no test exhausts the descriptors.", "anchors": ["cdn-broker/src/lib.rs:Broker::start", "cdn-broker/src/tasks/user/listener.rs:run_user_listener_task", "cdn-broker/src/tasks/broker/listener.rs:run_broker_listener_task", "cdn-marshal/src/lib.rs:Marshal::start", "cdn-marshal/src/handlers.rs:handle_connection"]}
{"id": "C85", "title": "The users of a broker that crashed are forgotten", "statement": "After a broker crashed and was started again, a broker that is linked with it and has nothing left to tell it, nor anything left to be told by it, does not forward to it messages for users who were connected to it before the crash and have not connected to any broker since.", "quantifier": "every schedule of any number of brokers, users, links, crashes and concurrent syncs, every crash in it", "why_tests_cant": "needs a crash at every point of every interleaving, and the syncs of all brokers that still believe in the old connections", "anchors": ["cdn-broker/src/tasks/broker/sync.rs:full_user_sync", "cdn-broker/src/tasks/broker/sync.rs:partial_user_sync", "cdn-broker/src/connections/mod.rs:apply_user_sync", "cdn-broker/src/connections/mod.rs:remove_user", "cdn-broker/src/connections/versioned_map.rs:merge", "cdn-proto/src/connection/limiter/mod.rs:Broker::new"]}
{"id": "C86", "title": "Messages for a user are forwarded only to brokers the user has connected to", "statement": "If a broker forwards messages for a user to some broker, then that user has at some time connected to that broker. Brokers exchanging what they believe, links failing, and brokers crashing never make up a place where a user is.", "quantifier": "every schedule of any number of brokers, users, links, crashes and concurrent syncs, every user and pair of brokers", "why_tests_cant": "a fact about everything brokers may tell each other in any order", "anchors": ["cdn-broker/src/connections/mod.rs:get_broker_identifier_of_user", "cdn-broker/src/connections/mod.rs:apply_user_sync", "cdn-broker/src/connections/versioned_map.rs:merge", "cdn-broker/src/connections/mod.rs:add_user"]}
{"id": "C87", "title": "The client and its broker agree on the subscriptions", "statement": "As long as a client is connected, the topics its broker delivers to it are exactly the topics the application has asked for with calls of subscribe and unsubscribe that succeeded (starting from those in its configuration) and that exist, once the broker has handled what the client has sent. This includes everything asked for on earlier connections, at other brokers, and while a reconnection was on its way.", "quantifier": "every run of the client with any number of concurrent calls, failures, cancellations and reconnections; every run of the broker with any number of connections; applications that do not send Subscribe and Unsubscribe messages by hand with send_message", "why_tests_cant": "The client keeps its own account of the subscriptions, in parallel with the one of the broker, across failures and reconnections; that the two never drift apart is a statement about all interleavings of calls, reconnections, lock acquisitions and the tasks of the broker.", "anchors": ["cdn-client/src/lib.rs:subscribe", "cdn-client/src/lib.rs:unsubscribe", "cdn-client/src/lib.rs:connect", "cdn-client/src/lib.rs:reconnect_if_needed", "cdn-broker/src/tasks/user/handler.rs:handle_user_connection", "cdn-broker/src/tasks/user/handler.rs:user_receive_loop", "cdn-broker/src/connections/mod.rs:add_user"]}
{"id": "C88", "title": "Somebody taken off the whitelist is off the network soon", "statement": "When a user's key is taken off the whitelist (and is not put back), then after 100 seconds, plus twice the time that a broker needs to check all its users, no broker has a connection of that user, whatever the user does: whether they were connected before, log in again, or had a login under way or a permit unused when they were taken off. The brokers' checks of this user have to get answers from the store.", "quantifier": "every number of brokers, marshals, users and logins under way; every schedule of logins, timeouts, disconnections, crashes and checks; every bound on the delay of the runtime (which is added five times) and on the duration of a check", "why_tests_cant": "The bound is a sum of timeouts of three programs (five seconds at the marshal, thirty for the permit, five at the broker, sixty between checks) and has to hold for every phase of the checks against the removal and the login, and for users who come back in the middle of a check.", "anchors": ["cdn-broker/src/tasks/broker/whitelist.rs:run_whitelist_task", "cdn-proto/src/connection/auth/marshal.rs:verify_user", "cdn-proto/src/connection/auth/broker.rs:verify_user", "cdn-broker/src/tasks/user/handler.rs:handle_user_connection", "cdn-marshal/src/handlers.rs:handle_connection", "cdn-proto/src/discovery/embedded.rs:check_whitelist", "cdn-proto/src/discovery/embedded.rs:validate_permit", "cdn-proto/src/discovery/redis.rs:check_whitelist"]}
{"id": "C89", "title": "A message hook sees every message of its connection, in order, and nothing else", "statement": "Each connection has a message hook of its own. It is called on exactly the messages that arrive on that connection, each once and in order, in the state in which the previous call left it; messages of other connections, also of other connections of the same user, do not reach it. A message it skips changes nothing but the hook's own state. After it has returned an error nothing that arrives on the connection reaches it or has any effect.", "quantifier": "all hooks and hook states, all numbers of connections of users and brokers, all interleavings of their tasks, all frames, connections that fail, are replaced or removed at any moment", "why_tests_cant": "Depends on the interleaving of arbitrarily many connections and on hooks with arbitrary state; tests use the no-op hook.", "anchors": ["cdn-proto/src/def.rs:68-92", "cdn-broker/src/tasks/user/handler.rs:94-161", "cdn-broker/src/tasks/broker/handler.rs:118-192"]}
{"id": "C90", "title": "Messages of permitted size get through, however slow the network and however busy the receiver", "statement": "A message of permitted size that is handed to a connection which stays up is received, however many bytes the network carries per second and however long the receiver has to wait for memory for it. (False: reading and writing a message may take five seconds each.) Where the network carries every message in less than that and memory is there, all messages are received, in order, as soon as the network can carry them; and whatever happens, what is received is a beginning of what was sent.", "quantifier": "all sizes and sequences of messages, buffer sizes, network speeds, time limits, scheduling delays, and interleavings of the sending task, the network and the receiving task", "why_tests_cant": "Tests move small messages over a loopback interface with an idle receiver; whether a time limit strikes depends on the size, the speed and the waiting time together, over all interleavings.", "anchors": ["cdn-proto/src/connection/protocols/mod.rs"]}
{"id": "C91", "title": "A client whose broker fails is soon connected to another one", "statement": "When the broker a client is connected to fails, or the connection to it is lost, while other brokers, the marshals and the discovery store are there, then a client that goes on being used is connected to a broker that is up within a bounded time. (False over TCP: a client that waits for messages is not told that its broker's host has disappeared. Where the client notices, 72 seconds after the end of the trouble suffice, and delays; as long as the store lists the dead broker, a minute may be needed.)", "quantifier": "all numbers of brokers, all histories of failures, restarts, heartbeats and attempts, any choice of the marshal among the brokers listed, all response times, scheduling delays and times of use within the stated limits", "why_tests_cant": "The bound comes from the interplay of the expiry of entries in the store, the choice of the marshal, the timeout of an attempt, the pause between attempts, and how a loss is noticed, over all timings; tests restart a broker that shares the machine, where the loss is seen at once.", "anchors": ["cdn-client/src/lib.rs", "cdn-broker/src/tasks/broker/heartbeat.rs", "cdn-proto/src/discovery/mod.rs", "cdn-proto/src/connection/protocols/mod.rs"]}
{"id": "C92", "title": "With the production authority, a client reaches the operator's marshals and brokers and nobody else", "statement": "A client that does not use the local authority gets a TLS connection only to a marshal or broker that was started with the file of the production authority's private key, as long as that key does not get out; and to each one started with the production authority's certificate and key it gets one.", "quantifier": "all sets of keys and certificates others make and present, all chains of certificates, all marshals and brokers with whatever files they were started with, all orders of these events", "why_tests_cant": "What an impostor may present is unbounded: any certificate, chain and key it can make or has seen. A test tries the genuine certificate, perhaps one wrong one.", "anchors": ["cdn-proto/src/crypto/tls.rs", "cdn-client/src/lib.rs", "cdn-proto/src/connection/protocols/mod.rs"]}
{"id": "C93", "title": "Brokers connect to the operator's brokers and nobody else", "statement": "If the brokers' connections use a protocol with TLS, a broker that connects to another one reaches it if and only if it is a broker of the operator. (False both ways: brokers always use the local authority, whose private key is in the source. Anyone is accepted; brokers started with another authority's files refuse one another. Brokers started without files reach one another.)", "quantifier": "all sets of keys and certificates, all protocols, all brokers with whatever files they were started with, all orders of events", "why_tests_cant": "All tests run with the local authority, where everything is accepted; the case that fails needs brokers with files of another authority, and an impostor with a certificate of its own.", "anchors": ["cdn-proto/src/crypto/tls.rs", "cdn-broker/src/tasks/broker/heartbeat.rs", "cdn-proto/src/connection/protocols/mod.rs"]}
{"id": "C94", "title": "A marshal or broker given an authority's file presents that authority's certificate or does not start", "statement": "If a marshal or broker is started with the path of an authority's certificate or of its key, then it presents a certificate that those who trust that authority accept, or it fails to start. (False: with only one of the two it presents one of the local authority; with a key that does not belong to the certificate it presents one nobody accepts. With both, of one authority, it holds.)", "quantifier": "all command lines, file contents, authorities, and other certificates presented along with it", "why_tests_cant": "The tests start everything without files.", "anchors": ["cdn-proto/src/crypto/tls.rs", "cdn-broker/src/lib.rs", "cdn-marshal/src/lib.rs"]}
{"id": "C95", "title": "Brokers started from one configuration are different brokers", "statement": "If an advertised endpoint of a configuration mentions local_ip, then brokers started with this configuration on machines with different addresses never have the same identity while they run at the same time, and the discovery store keeps them apart.", "quantifier": "every configuration and address of machines; every history of brokers started and stopped (start() may fail anywhere) and of sockets opened by other processes", "why_tests_cant": "Tests start brokers with given endpoints on one machine; that a textual replacement never makes two identities equal, and that a second broker on the same machine cannot start, concerns all texts and all histories.", "anchors": ["cdn-broker/src/lib.rs:133-262", "cdn-broker/src/binaries/broker.rs:32-47", "cdn-proto/src/discovery/mod.rs:91-99", "cdn-proto/src/connection/protocols/tcp.rs:103-118"]}
{"id": "C96", "title": "running_latency is the average latency of the last half minute", "statement": "Every 30 seconds the gauge running_latency is set to the average of the latencies of the messages released since it was last set.", "quantifier": "every interleaving of messages being released, the histogram's updates, and the calculator's two reads", "why_tests_cant": "The race between the reads and the updates needs a particular interleaving of threads; tests of the metric run on a quiet process.", "anchors": ["cdn-proto/src/metrics.rs:43-78", "cdn-proto/src/connection/limiter/pool.rs:44-52", "cdn-proto/src/connection/metrics.rs:20-28"]}
{"id": "C97", "title": "What users write is what users read, from the first start of the brokers on", "statement": "Brokers are started, links come and go, users connect, move from broker to broker, leave and change their topics, and syncs run; then everything about users and topics has been announced and has arrived. From then on the messages a connected user reads from another user are those the other wrote to them directly or on a topic they have asked for: the same messages, in the order written, none lost and none twice. Someone not connected reads nothing.", "quantifier": "every number of brokers and users, every history in which the links are complete before users connect and the changes of one user happen one after the other, every interleaving of the syncs and of the delivery, every message short enough to be received and every way of dividing its encoding into segments", "why_tests_cant": "A test sets up one mesh and one history. The claim joins the routing tables that any history produces with the delivery of any messages over them.", "anchors": ["cdn-broker/src/connections/mod.rs", "cdn-broker/src/tasks/broker/sync.rs", "cdn-broker/src/tasks/user/handler.rs", "cdn-broker/src/tasks/broker/handler.rs", "cdn-proto/src/message.rs"]}
{"id": "C98", "title": "How soon a subscription is known at the other brokers", "statement": "While two brokers keep their link and the first keeps a user subscribed to a topic, the second forwards messages on that topic to the first, at the latest after one sync interval (ten seconds) plus the time a sync takes to send and the other broker takes to handle the message. With nobody subscribed, it stops forwarding after the same time. Counted from the start of a topic sync, as with a user who connects (strong-consistency), it takes only the sending and handling.", "quantifier": "every number of brokers and users, every bound on the durations, every history of users, links, crashes and concurrent syncs that keeps to the bounds, every pair of linked brokers and every topic", "why_tests_cant": "Tests wait until a subscription has arrived, or call the sync by hand; that there is a bound, under all interleavings of syncs with other changes, is not something a test run shows.", "anchors": ["cdn-broker/src/tasks/broker/sync.rs:68-144", "cdn-broker/src/tasks/broker/sender.rs:22-58", "cdn-broker/src/tasks/broker/handler.rs:90-189", "cdn-broker/src/tasks/user/handler.rs:74-90", "cdn-broker/src/connections/mod.rs"]}
{"id": "C99", "title": "How long a user has to wait before moving to another broker", "statement": "Once all brokers are linked and while links are steady, a user who lets more than one sync interval (ten seconds, plus the time to send and handle a message) pass between any two of their connects and disconnects is always found: at any time later than that after their last connect or disconnect, every broker routes their direct messages to the broker they are connected to, exactly that broker has them connected, and a direct message published then is received exactly once. A user who waits a millisecond less can be thrown out by the broker they moved to, and their messages are then sent to the broker they left.", "quantifier": "every number of brokers and users, every bound on the durations, every history in which links are first built up in any way, and every interleaving of concurrent syncs and of other users' connects and disconnects that keeps to the bounds", "why_tests_cant": "Tests move users in a mesh of tables without a clock or call the syncs by hand; how long is long enough depends on the latest interleaving of syncs, sends and deliveries, which a test does not meet.", "anchors": ["cdn-broker/src/tasks/broker/sync.rs:41-144", "cdn-broker/src/connections/mod.rs:114-160", "cdn-broker/src/connections/versioned_map.rs", "cdn-broker/src/tasks/broker/sender.rs:22-58", "cdn-broker/src/tasks/broker/handler.rs:90-189", "cdn-broker/src/tasks/user/handler.rs:24-72"]}
{"id": "C100", "title": "What users write is what users read, ten seconds after the last change", "statement": "Brokers are started and links come and go until all are linked; then users connect, move from broker to broker and leave, each letting a sync interval pass between two of their changes, and subscribe and unsubscribe as they like. Once nobody has changed anything for one sync interval (ten seconds) plus the time to send and handle a message, the messages a connected user reads from another user are those the other wrote to them directly or on a topic they have asked for: the same messages, in the order written, none lost and none twice. Someone not connected reads nothing. Nothing is assumed about the syncs but that they run in time; after a millisecond less of quiet, a subscriber can miss a message.", "quantifier": "every number of brokers and users, every bound on the durations, every history of links before users connect, every history of users that wait between their changes, every interleaving of the syncs that keeps to the bounds and of the delivery, every message short enough to be received and every way of dividing its encoding into segments", "why_tests_cant": "A test waits for as long as it happens to need on one mesh with one history. How long is enough under all interleavings, and that everything is delivered from then on, is beyond what runs can show.", "anchors": ["cdn-broker/src/connections/mod.rs", "cdn-broker/src/tasks/broker/sync.rs:41-144", "cdn-broker/src/tasks/broker/sender.rs:22-58", "cdn-broker/src/tasks/user/handler.rs", "cdn-broker/src/tasks/broker/handler.rs", "cdn-proto/src/message.rs"]}
{"id": "C101", "title": "What a user reads was written, and is read, by holders of whitelisted keys", "statement": "Whenever a broker hands a frame to a connection, somebody had before that written exactly this frame on a connection that some broker had accepted for a key k, and before they wrote it a marshal had received k with a fresh timestamp and a signature over it that verifies under k, had been told that k is whitelisted, and had issued the permit on which that broker took them for k. The connection it is handed to is one that the broker had accepted for a key u vouched for in the same way, and the frame is a direct message to u or a broadcast on a topic that the user u has asked this broker for. What brokers pass on to each other travels only between brokers that have shown each other fresh signatures under the key they share. So nothing that somebody without an admitted key says reaches a user, and nobody without an admitted key is handed a message.", "quantifier": "every number of marshals, brokers, users and strangers, every interleaving of authentication, tasks, routing, failing sends and removals, every choice of messages by anyone who is not yet authenticated, both discovery stores, with and without global permits", "why_tests_cant": "The tests authenticate honest clients and route between clients put into the table by hand; that no interleaving of logins, reconnections, syncs and messages lets an unauthenticated frame through cannot be tested.", "anchors": ["cdn-broker/src/tasks/user/handler.rs:24-161", "cdn-broker/src/tasks/broker/handler.rs:31-192", "cdn-broker/src/tasks/user/sender.rs:16-32", "cdn-broker/src/tasks/broker/sender.rs:17-45", "cdn-proto/src/connection/auth/marshal.rs:44-143", "cdn-proto/src/connection/auth/broker.rs:77-300", "cdn-proto/src/discovery/redis.rs:207-265", "cdn-proto/src/discovery/embedded.rs:231-319"]}
{"id": "C102", "title": "One proof of possession, one session", "statement": "Every session any broker has had with a user rests on a conversation with a marshal of its own, in which the user's key was presented with a fresh timestamp and a signature that verifies under it and was found on the whitelist: no two sessions, at the same broker or at different ones, rest on the same conversation. So whoever has overheard or stolen a permit can use it only instead of the user, never in addition.", "quantifier": "every number of marshals, brokers, users and strangers, every interleaving of their conversations, of concurrent attempts to use the same permit, of issuances that draw the same number, and of calls to the store that report an error although they took effect, both discovery stores, with and without global permits", "why_tests_cant": "A test that presents a permit twice in turn shows one interleaving; what happens with concurrent attempts at several brokers, reissued numbers and lost answers is a statement about all of them.", "anchors": ["cdn-broker/src/tasks/user/handler.rs:24-47", "cdn-proto/src/connection/auth/marshal.rs:44-143", "cdn-proto/src/connection/auth/broker.rs:77-153", "cdn-proto/src/discovery/redis.rs:207-265", "cdn-proto/src/discovery/embedded.rs:231-319"]}
{"id": "C103", "title": "A name whose server listens can be connected to", "statement": "If an endpoint's host name has an address at which a server answers in time, connecting to the endpoint yields a connection to such a server. Connecting ends within a time that can be told beforehand, also when a time limit is put around it, and so does the listening side's part for every newcomer.", "quantifier": "every answer and delay of the resolver, of the operating system, of the TLS and QUIC handshakes and of the peer; all three network protocols; every time limit around the call", "why_tests_cant": "Tests connect to one literal IPv4 address on the local machine that answers at once; names with several addresses, IPv6 addresses, slow resolvers and silent peers are what deployments have.", "anchors": ["cdn-proto/src/connection/protocols/tcp.rs:44-94", "cdn-proto/src/connection/protocols/tcp_tls.rs:53-134", "cdn-proto/src/connection/protocols/quic.rs:41-119", "cdn-proto/src/connection/protocols/tcp_tls.rs:182-206", "cdn-proto/src/connection/protocols/quic.rs:165-187"]}
{"id": "C104", "title": "The byte gauges count every message once, on both sides", "statement": "On every connection, total_bytes_sent grows by exactly the bytes of the messages written and total_bytes_recv by exactly the bytes of the messages read, which are the first ones submitted. Summed over all processes, receivers never count more than senders by more than one message per connection, and once everything submitted on connections without failures has been received both sums are the same.", "quantifier": "every list of connections between any processes, every schedule of their tasks, every way the streams are cut into pieces, and failures and aborts at any point", "why_tests_cant": "A test compares two gauges after some messages on one healthy connection; whether an interrupted read or write is counted depends on the byte at which it is interrupted.", "anchors": ["cdn-proto/src/connection/metrics.rs:13-19", "cdn-proto/src/connection/protocols/mod.rs:311-351", "cdn-proto/src/connection/protocols/mod.rs:354-394"]}
{"id": "C105", "title": "Users are spread evenly over the brokers", "statement": "The broker a marshal sends a user to has, counting users on their way to it, no more users than any other listed broker; so while users only come, no two brokers that get any differ by more than one.", "quantifier": "every number of brokers, marshals and users, every interleaving of heartbeats, choices, permits issued and redeemed, users arriving and leaving, both discovery stores", "why_tests_cant": "The tests of the stores ask once for the broker with the fewest connections right after setting the numbers; how uneven the load gets depends on the arrivals between heartbeats and on which of them the store counts.", "anchors": ["cdn-proto/src/discovery/embedded.rs:89-319", "cdn-proto/src/discovery/redis.rs:81-265", "cdn-broker/src/tasks/broker/heartbeat.rs:22-60", "cdn-marshal/src/handlers.rs", "cdn-proto/src/connection/auth/marshal.rs:100-143"]}
{"id": "C106", "title": "Nobody reads a message twice", "statement": "A message that an application hands to its client with one call to send_message is read at most once by every user, whatever happens meanwhile: users connecting, reconnecting and moving between brokers, brokers losing one another, sends failing, stale tables.", "quantifier": "every client history (calls, failures, reconnections, calls given up), every number of brokers and users, every interleaving of receive loops and sends, every sequence of routing tables, stale or inconsistent ones included", "why_tests_cant": "Tests route each message once between users who stay where they are; a duplicate needs a user to move, or a table to change, while copies are under way.", "anchors": ["cdn-client/src/lib.rs:295-317", "cdn-client/src/lib.rs:130-165", "cdn-broker/src/tasks/broker/handler.rs:198-271", "cdn-broker/src/tasks/user/handler.rs:95-163", "cdn-broker/src/connections/mod.rs:69-140", "cdn-proto/src/connection/protocols/mod.rs:239-251"]}
{"id": "C107", "title": "Strangers do not hold up messages and logins", "statement": "What a peer that has not authenticated sends, or leaves unsent, does not delay the reading of anybody else's messages at a broker or marshal.", "quantifier": "every pool size, every number of peers, every interleaving of announcements, reads, clones, drops and disconnections with their times", "why_tests_cant": "Memory is shared by all connections of a process and taken when a message is announced; how long the others wait depends on who announced what before, which a test with a few well-behaved peers never shows.", "anchors": ["cdn-proto/src/connection/protocols/mod.rs:139-217", "cdn-proto/src/connection/protocols/mod.rs:311-351", "cdn-proto/src/connection/limiter/pool.rs:26-70", "cdn-proto/src/connection/limiter/mod.rs:52-71", "cdn-proto/src/lib.rs:25", "cdn-broker/src/tasks/user/handler.rs:24-41", "cdn-marshal/src/handlers.rs:21-37", "cdn-broker/src/binaries/broker.rs:65-72", "cdn-marshal/src/binaries/marshal.rs:44-49"]}
{"id": "C108", "title": "What has arrived is read by the application", "statement": "What arrives on a client's connection is returned by the application's calls of receive_message: in the order of arrival, every message by one call, however many tasks call at the same time and however many calls are given up; a call that returns Ok returns one message; that a connection has ended is reported only after everything that arrived on it. Nothing that has arrived is lost while the application keeps calling receive_message.", "quantifier": "all sequences of calls by any number of tasks, given up at any await, all contents of the connections, all failures and reconnections", "why_tests_cant": "Whether something is lost depends on which of several concurrent calls fails or is given up between the arrival of a message and its being asked for.", "anchors": ["cdn-client/src/lib.rs:147-165", "cdn-client/src/lib.rs:260-269", "cdn-client/src/lib.rs:302-315", "cdn-proto/src/connection/protocols/mod.rs:85-116", "cdn-proto/src/connection/protocols/mod.rs:147-217", "cdn-proto/src/connection/protocols/mod.rs:258-281"]}
{"id": "C109", "title": "Calls on a connection that has failed return", "statement": "Once a connection has failed, calls on it return: sending (send_message, send_message_raw, soft_close) returns an error, receiving returns what was received completely before and then an error, and a call of soft_close that was waiting returns. Without a failure, soft_close returns Ok when what was sent before it has been written.", "quantifier": "every schedule of the callers and the two tasks of a connection, every failure, every capacity of the channels", "why_tests_cant": "A caller hangs only if a write fails in the moment between its request and the sender task's next turn; tests close connections that are idle.", "anchors": ["cdn-proto/src/connection/protocols/mod.rs:105-116", "cdn-proto/src/connection/protocols/mod.rs:155-210", "cdn-proto/src/connection/protocols/mod.rs:238-307", "cdn-marshal/src/handlers.rs:21-37", "cdn-client/src/lib.rs:445-457"]}
{"id": "C110", "title": "Choosing a broker works while the store changes", "statement": "A marshal chooses a broker for a user with several commands to the discovery store, and brokers and other marshals keep using the store in between. If some broker is alive from before the call until after it, the call returns a broker. The broker returned was alive when the call read the list of brokers, and its load at the moment it was looked at is no greater than the load of every other listed broker at the moment that one was looked at.", "quantifier": "For all histories of the store before the call, all interleavings of steps by other processes and all clock values at each command of the call, all orders in which the brokers are gone through, any number of brokers.", "why_tests_cant": "A test calls the function against a store nobody else is using; the failure needs an expiry to fall between two particular commands, a window of well under a millisecond in a local test.", "anchors": ["cdn-proto/src/discovery/redis.rs:122-172", "cdn-proto/src/discovery/embedded.rs:134-189", "cdn-marshal/src/handlers.rs:21-37", "cdn-proto/src/connection/auth/marshal.rs:100-140"]}
{"id": "C111", "title": "A key is checked correctly while the whitelist is replaced", "statement": "check_whitelist asks the store twice: whether there is a whitelist and whether the key is in it. If the whitelist is replaced while a call is under way, a key that is allowed before and after is allowed, and a key that is refused before and after is refused.", "quantifier": "For all earlier states, all whitelists, all keys, and all steps of other processes between the two questions, any number of updates among them.", "why_tests_cant": "Needs an update to fall between two consecutive commands of one call; a test cannot place it there and would not repeat it.", "anchors": ["cdn-proto/src/discovery/redis.rs:303-326", "cdn-proto/src/discovery/embedded.rs:360-396", "cdn-proto/src/discovery/embedded.rs:325-354", "cdn-proto/src/connection/auth/marshal.rs:88-105"]}
{"id": "C112", "title": "Interest is exact although the two ends of a connection register it at different moments", "statement": "Each broker registers a connection to another broker in its own time; several connections between the same two brokers may be under way at once, and brokers may crash and be started again. Whenever two brokers have the same connection registered for each other and everything announced about topics has arrived, each forwards messages on a topic to the other exactly if some user connected there is subscribed to it.", "quantifier": "Every number of brokers, users, topics and connections; every interleaving of authentications, registrations at either end, removals, restarts, subscription changes, lookups and sends of concurrent syncs, and deliveries; every topic.", "why_tests_cant": "Connections made at the same moment, or the same moment as a restart, are registered in one of many orders; a test sees the one order its scheduler happens to choose.", "anchors": ["cdn-broker/src/tasks/broker/handler.rs:31-119", "cdn-broker/src/tasks/broker/sender.rs:17-58", "cdn-broker/src/tasks/broker/sync.rs:49-123", "cdn-broker/src/connections/mod.rs:74-81"]}
{"id": "C113", "title": "Whitelists set at the same moment do not mix", "statement": "If several processes call set_whitelist, at the same moment or one after the other, then when all calls have returned the keys allowed are exactly those of the list given in one of these calls, and that call reported success.", "quantifier": "Every state of the store before; every number of calls, with any lists; every interleaving of the statements of the calls with each other and with everything else processes do with the store; both backends.", "why_tests_cant": "Two updates have to overlap statement by statement; a test with two processes on a local file never reaches the interleavings that matter, and cannot try all of them.", "anchors": ["cdn-proto/src/discovery/embedded.rs:325-354", "cdn-proto/src/discovery/embedded.rs:360-396", "cdn-proto/src/discovery/redis.rs:271-297"]}
{"id": "C114", "title": "The deterministic generator depends on its seed only", "statement": "The bytes read from a DeterministicRng are the eight bytes of its seed, lowest first, followed by zeros, in however many calls they are read and whatever other methods are called in between. Two generators with different seeds differ within the first eight bytes. next_u32 and next_u64 return the same number until bytes are read.", "quantifier": "All seeds; all sequences of calls of all methods, with slices of any lengths.", "why_tests_cant": "There are 2^64 seeds, and the ways of dividing reads into calls are unlimited; tests use seed 0, for which every byte is zero.", "anchors": ["cdn-proto/src/crypto/rng.rs:15-42", "cdn-proto/src/crypto/signature.rs:134-139"]}
{"id": "C115", "title": "A broadcast arrives exactly once although the mesh is changing around it", "statement": "A user stays connected to one broker and subscribed to a topic; the publisher's broker knows of that interest, and the publisher's connection to their broker and the connection between the two brokers stay. Whatever happens around them while a broadcast on that topic is under way - other users come, go, move and change their topics, the user changes their other topics, other brokers connect, disconnect and restart, syncs and other messages are under way - the user receives the broadcast at most once, and exactly once when nothing is under way any more.", "quantifier": "Every history before; every interleaving of what happens to users, connections and syncs with the handling and forwarding of all messages; every number of brokers, users, topics and messages; every pair of brokers, also the same one. Excepted, as in C112: histories in which the publisher's broker handles a topic sync of the user's broker on the connection between the two while it does not have it registered, or on another one while it does; and hooks that change or drop messages, and failing sends to the user or to their broker.", "why_tests_cant": "The tables are read anew for every frame and every send, at moments that depend on the scheduler; a test can publish during a few chosen changes, not during all of them.", "anchors": ["cdn-broker/src/tasks/user/handler.rs:105-161", "cdn-broker/src/tasks/broker/handler.rs:130-192", "cdn-broker/src/tasks/broker/handler.rs:240-272", "cdn-broker/src/connections/mod.rs:93-123"]}
{"id": "C116", "title": "A direct message arrives exactly once although the mesh is changing around it", "statement": "All brokers have heard where a user is, and the user stays connected there and nowhere else. The publisher stays connected to their broker, and the connection between the two brokers stays. Whatever happens around them while a direct message to the user is under way - other users come, go and move, other connections between brokers come, go and are replaced with what is under way on them, other brokers restart, brokers send each other everything they know - the user receives the message at most once, and exactly once when nothing is under way any more.", "quantifier": "Every history before in which the user's own changes are announced one after the other; every interleaving afterwards of what happens to users, connections and syncs with the handling and forwarding of all messages; every number of brokers, users and messages; every pair of brokers, also the same one.", "why_tests_cant": "The place of the user is looked up anew for every frame, while syncs from any broker are being merged into the same map; a test sees a few of these interleavings.", "anchors": ["cdn-broker/src/tasks/broker/handler.rs:198-237", "cdn-broker/src/tasks/user/handler.rs:105-131", "cdn-broker/src/connections/mod.rs:69-71", "cdn-broker/src/connections/mod.rs:154-162", "cdn-broker/src/connections/versioned_map.rs:201-260"]}
{"id": "C117", "title": "Messages arrive in order although the mesh is changing around them", "statement": "A user stays connected to one broker and subscribed to some topics, a publisher stays connected to a broker, the connection between the two brokers stays, and the publisher's broker knows of the user's place and topics. Whatever happens around them, what the user has received of the direct messages to them and the broadcasts on these topics that the publisher sends is, at every moment, the first of these messages in the order in which they were sent, without gaps and without repetitions, direct messages and broadcasts together; and all of them when nothing is under way any more.", "quantifier": "Every history before; every interleaving of what happens to other users, connections and syncs with the handling and forwarding of all messages; every number of messages of either kind from the publisher and from others; every number of brokers, users and topics; every pair of brokers, also the same one. Excepted, as in C112: histories in which the publisher's broker handles a topic sync of the user's broker on the connection between the two while it does not have it registered, or on another one while it does; and hooks that change or drop messages, and failing sends to the user or to their broker.", "why_tests_cant": "Messages of one publisher are handled by two receive loops while the tables change between any two of them; a test sees a few interleavings with a few messages.", "anchors": ["cdn-broker/src/tasks/user/handler.rs:95-163", "cdn-broker/src/tasks/broker/handler.rs:121-194", "cdn-broker/src/tasks/broker/handler.rs:198-272", "cdn-proto/src/connection/protocols/mod.rs:139-217"]}
{"id": "C118", "title": "Nobody reads what is not meant for them, or forever, although the mesh is changing", "statement": "From the first start of the brokers, while users connect, reconnect, move, leave and change their topics, brokers are restarted, connections between brokers are made, replaced and lost, syncs are late, lost or handled on a connection already given up, and sends fail: (1) whenever a broker hands a user a message, the user is connected to it at that moment, the message was published before, byte for byte, by the user named as its sender, and it is a direct message to that user or a broadcast on a topic for which the user itself had asked this very broker (on connecting or by subscribing) and which the user had not taken back (by unsubscribing, disconnecting or connecting again without it; nor had the broker been restarted) when the broker routed the message. (2) No broker hands one message to the same user twice; a direct message is received at most once by anybody; any message is received at most as often as there are brokers the user connected to. (3) A message crosses at most one connection between brokers, and what has been published causes finitely many sends, even if changes of users, connections and topics never end. (For (1) and for direct messages: hooks leave messages alone, and brokers send each other nothing of their own but syncs.)", "quantifier": "All histories from freshly started brokers: any number of brokers, users, topics and messages, any interleaving of user, connection, sync and message steps, with stray frames, restarts, failing sends and lost frames; for (3) infinite continuations", "why_tests_cant": "A leak or a loop needs an unlucky interleaving of routing, syncing and users' moves; tests fix the tables first and publish then, so that what a stale table lets through is never seen.", "anchors": ["cdn-broker/src/tasks/broker/handler.rs:126-194", "cdn-broker/src/tasks/user/handler.rs:100-163", "cdn-broker/src/connections/mod.rs:83-151"]}
{"id": "C119", "title": "A user's own messages come back in step with the user's own subscriptions", "statement": "From the moment a broker has registered a user's connection: every broadcast the user sends on a topic that exists and that the user is subscribed to at that moment (by the topics given on connecting and the user's own subscribe and unsubscribe messages before it on the same connection), and every direct message the user sends under its own key, is sent back to the user once, unchanged, in the order in which the user wrote them and on that same connection; none of the user's other messages is. So a user who subscribes and then broadcasts, without waiting in between, gets its own message, and a user who has unsubscribed gets none of its later ones. This holds whatever the broker's other tasks do between any two steps and whichever sends to others fail, as long as the user is still connected afterwards.", "quantifier": "All histories of the broker before the registration, all lists of topics, all sequences of frames of the user, all calls of the other tasks (registrations, removals, subscriptions of other users, syncs) between frames and between the sends of one frame, all patterns of failing sends; no message hook", "why_tests_cant": "A test subscribes, waits and broadcasts; that a subscription is in force for the very next message, and that its removal is, depends on how the receive loop is interleaved with every other task of the broker.", "anchors": ["cdn-broker/src/tasks/user/handler.rs:95-163", "cdn-broker/src/tasks/broker/handler.rs:197-272", "cdn-broker/src/tasks/user/sender.rs:16-32"]}
{"id": "C120", "title": "Users of a broker that crashed are found where they connect next", "statement": "A broker's process ends while users are connected to it. A user who was connected there connects to another broker, and stays connected to it. From then on the new broker keeps the connection, and every broker that is linked to the new one, and has been told everything the new one has to say, forwards messages for the user to the new one - whether the old broker stays away or is started again in the meantime.", "quantifier": "Every history before the crash; every interleaving afterwards of users' connections, links between brokers coming up and failing, restarts, and syncs being taken, sent and handled; every number of brokers and users; every order of the brokers' identifiers", "why_tests_cant": "Whether the new connection prevails depends on versions, on the order of identifiers and on which of several syncs is taken and handled first, within the ten seconds between two syncs; a test crashes a broker at one moment, if at all.", "anchors": ["cdn-broker/src/connections/mod.rs:154-183", "cdn-broker/src/connections/mod.rs:252-345", "cdn-broker/src/connections/versioned_map.rs:201-260", "cdn-broker/src/tasks/broker/sync.rs:49-144", "cdn-broker/src/tasks/broker/handler.rs:90-118"]}
{"id": "C121", "title": "A broker that is gone is forgotten", "statement": "A broker's process ends and is not started again. Once the others have noticed, and have told each other everything they have to say, none of them forwards messages for any user to it, and none of them keeps its users in its tables.", "quantifier": "Every history before the broker ends; every interleaving afterwards in which it is not linked again: users' connections, links between the others, restarts of the others, syncs; every number of brokers and users", "why_tests_cant": "Entries that are left behind do no harm a test would notice at once: a message for a user who is not there is lost either way, and the growth of a table shows only after many users and long times.", "anchors": ["cdn-broker/src/connections/mod.rs:301-324", "cdn-broker/src/connections/mod.rs:154-183", "cdn-broker/src/connections/versioned_map.rs:141-155", "cdn-broker/src/tasks/broker/handler.rs:96-118"]}
{"id": "C122", "title": "Direct messages reach a user who stays where they are, although links between brokers fail and come back", "statement": "A user connects to a broker once and stays connected there. Before and after that links between brokers fail and come up again, brokers other than the user's are restarted, and syncs are exchanged in any order. A direct message for the user, published at their broker, or at a broker that is linked to theirs when the two have nothing left to tell each other, is then received by the user exactly once and by nobody else.", "quantifier": "Every history of links, restarts of other brokers, other users and concurrent syncs in which this user connects once; every number of brokers; every order of their identifiers; every schedule of the receive loops while the tables do not change; every message", "why_tests_cant": "Whether the recipient is still known, and still connected, depends on which links came up after the user connected, on the order of the two brokers' identifiers and on who repeated whose entry to whom; a test fails one link at one moment.", "anchors": ["cdn-broker/src/connections/mod.rs:154-183", "cdn-broker/src/connections/versioned_map.rs:201-260", "cdn-broker/src/tasks/broker/handler.rs:90-118", "cdn-broker/src/tasks/broker/handler.rs:197-240"]}
{"id": "C123", "title": "A broker forgets users who left as soon as it has said so", "statement": "Whatever calls were made on a broker's tables (users connecting, leaving, moving and subscribing, links coming and going, syncs with any contents), right after partial_user_sync the direct map has entries for exactly those users whose broker get_broker_identifier_of_user finds. At other times it may in addition have entries for users who have been removed here, or were said by another broker to be here, since the last partial_user_sync; the next one announces all of these as gone. The table of the broker's own topics, and the one it keeps for each other broker, never hold removed entries and have at most 256 entries each. In a mesh, whatever happened, a broker with nothing to announce about a user has an entry about them only if it finds them; and once a user whose changes were announced in turn, over stable links, has left and this has been announced, no broker has any entry about them.", "quantifier": "All broker identities; all finite sequences of calls on a new table, before and after any partial_user_sync, with arbitrary sync maps from other brokers; all users, versions and topics; all meshes and schedules, with links that fail and brokers that are restarted (the last part: stable links)", "why_tests_cant": "Removed entries (tombstones) are kept until they are announced, and merging drops them or not depending on versions and identities. Whether any is left behind depends on the whole history of local changes and received syncs; a test sees a few such histories and no growth over months.", "anchors": ["cdn-broker/src/connections/versioned_map.rs:84-136", "cdn-broker/src/connections/versioned_map.rs:168-194", "cdn-broker/src/connections/versioned_map.rs:201-269", "cdn-broker/src/connections/mod.rs:143-162", "cdn-broker/src/connections/mod.rs:205-237"]}
{"id": "C124", "title": "A broker that joins learns where the users are", "statement": "All brokers of a mesh but one know that a user is connected to broker y; the remaining one links to them. No link fails, every broker's syncs are sent in order, and the user does not connect again. Once all brokers are linked and have nothing left to tell each other, the new broker forwards messages for the user to y if the user is still connected there, and only then.", "quantifier": "Every number of brokers and order of identifiers; every history before the broker joins; every interleaving of initial syncs, announcements and the user's leaving; any other users", "why_tests_cant": "What the new broker ends up with depends on the order in which initial syncs of several brokers and the announcement of the user's leaving are handled; a test sees one order, usually with all users idle while the broker joins.", "anchors": ["cdn-broker/src/tasks/broker/handler.rs:92-118", "cdn-broker/src/connections/versioned_map.rs:201-260", "cdn-broker/src/tasks/broker/sync.rs:43-145", "cdn-broker/src/connections/mod.rs:154-183"]}
{"id": "C125", "title": "Direct messages follow users who move, although links and brokers fail in between", "statement": "A user connects, moves to other brokers and leaves, any number of times, each change announced before the next. In between, while the user stays, links fail and come up again and other brokers are restarted, any number of times; while the user changes, all brokers are linked and links are stable, and while the user is at a broker no broker with a greater identifier newly links to it. Then, also while links fail after the last change, a direct message for the user is never received by anybody else and never twice; it is received if it is published at the user's broker, or at a broker that is linked to it and has been told everything by it; if the user is not connected, nobody receives it.", "quantifier": "Every number of brokers, every order of their identifiers; every number of moves, link failures and restarts in such a history; every behaviour of other users; every interleaving of concurrent syncs; every schedule of the receive loops while the tables do not change; every message", "why_tests_cant": "Versions count over the whole history and survive restarts of other brokers only through what third brokers repeat; a test makes one move and one failure.", "anchors": ["cdn-broker/src/connections/mod.rs:154-183", "cdn-broker/src/connections/versioned_map.rs:201-260", "cdn-broker/src/tasks/broker/handler.rs:92-118", "cdn-broker/src/tasks/broker/handler.rs:197-240", "cdn-broker/src/tasks/broker/sync.rs:43-145"]}
{"id": "C126", "title": "Users are found after any number of moves, link failures and crashes, also of their own broker", "statement": "The life of a user consists of three kinds of parts, in any order and number. They stay while links fail and come up and other brokers restart, no broker with a greater identifier newly linking to theirs. They connect, move and leave while all brokers are linked, each change announced before the next. Or their own broker crashes and they connect to another broker that remembers where they were, the crashed one being linked again only when nobody says any more that the user is there. Then at any time after such parts: every broker has the user where they are or nowhere; a broker linked to theirs and told everything by it has them where they are, and syncs alone always lead to that; a direct message for the user is never received by anybody else and never twice, is received if published at the user's broker or at one so linked and told, and is received by nobody if the user has left.", "quantifier": "Every number of brokers, every order of their identifiers; every sequence of parts, with no bound on moves, failures and crashes; every behaviour of other users; every interleaving of concurrent syncs; every schedule of the receive loops while the tables do not change; every message", "why_tests_cant": "A crash makes the user's version start over at the crashed broker while copies of the old one remain elsewhere; whether later moves still win depends on all versions handed out before. A test makes one crash, from a fresh start.", "anchors": ["cdn-broker/src/connections/mod.rs:154-183", "cdn-broker/src/connections/mod.rs:252-324", "cdn-broker/src/connections/versioned_map.rs:201-260", "cdn-broker/src/tasks/broker/handler.rs:92-118", "cdn-broker/src/tasks/broker/handler.rs:197-240", "cdn-broker/src/tasks/broker/sync.rs:43-145"]}
{"id": "C127", "title": "Broadcasts follow users who move, although links fail and brokers crash, also the user's own", "statement": "A user's life consists of parts as in C126: staying while links and other brokers fail, moving while all brokers are linked, and finding another broker after their own has crashed. At any time after such parts, whatever the rest of the mesh looks like, a broadcast published at some broker is received by the user at most once; not at all if the user has left or has not asked for any of its topics where they are now; and exactly once if they have asked there for one of its valid topics and the message is published at their broker, or at one that is linked to it and has been told all about its topics.", "quantifier": "Every number of brokers, every order of their identifiers; every sequence of parts, with no bound on moves, failures and crashes; every state of the links between other brokers; every behaviour and all subscriptions of other users; every interleaving of syncs; every schedule of the receive loops while the tables do not change; every message", "why_tests_cant": "A user who is still registered at a broker they left receives a broadcast twice, and whether they are depends on versions handed out over the whole history; subscriptions are announced per link, on links that were replaced in the meantime. A test looks at one move with all links up.", "anchors": ["cdn-broker/src/connections/mod.rs:154-183", "cdn-broker/src/connections/mod.rs:252-324", "cdn-broker/src/tasks/broker/handler.rs:92-118", "cdn-broker/src/tasks/broker/handler.rs:240-272", "cdn-broker/src/tasks/broker/sync.rs:43-145"]}
{"id": "C128", "title": "A broker linked to the user's knows them within a bounded time, whatever else fails", "statement": "A user's life consists of parts as in C126, and time passes: between two periodic user syncs of a broker at most the sync interval, a started sync is sent within one bound, and a message on a link is handled within another. The user is at broker y, and y has started its initial user sync for its link to broker x. From then on the user stays and the link between y and x is kept, while all other links fail and come up and all other brokers restart, as often as they like (no broker with a greater identifier newly linking to y). As soon as more than the sync interval and the two bounds have passed, x has the user at y, and the user is still connected there; a direct message for the user published at x from then on, while the tables do not change, is never received by anybody else nor twice, and has been received by the user once nothing is in flight.", "quantifier": "Every number of brokers, every order of their identifiers; every sequence of parts before; all bounds; every timing of all other events within the bounds, links and brokers failing meanwhile; every behaviour of other users; every interleaving of syncs", "why_tests_cant": "What x is told depends on announcements, initial syncs and repetitions by third brokers that crash meanwhile; the worst delay shows only in timings a test does not choose.", "anchors": ["cdn-broker/src/tasks/broker/sync.rs:43-145", "cdn-broker/src/tasks/broker/handler.rs:92-118", "cdn-broker/src/tasks/broker/handler.rs:197-240", "cdn-broker/src/connections/mod.rs:154-183", "cdn-broker/src/connections/versioned_map.rs:201-260"]}
{"id": "C129", "title": "Broadcasts reach a subscribed user within a bounded time, whatever else fails", "statement": "A user's life consists of parts as in C126, and time passes as in C98: between two periodic topic syncs of a broker at most the sync interval, the full sync for a new link is started, a started sync is sent, and a message on a link is handled within bounds. The user is at broker y and subscribed to topic t there. From then on they stay and stay subscribed, and the link between y and broker x is kept, while all other links fail and come up, all other brokers restart and all other users do as they like (no broker with a greater identifier newly linking to y). As soon as more has passed than the sync interval or the bound for the full sync, whichever is longer, and the bounds for sending and handling, a broadcast published at x on valid topics that include t, while the tables do not change, is received by the user at most once, and has been received once nothing is in flight.", "quantifier": "Every number of brokers, every order of their identifiers; every sequence of parts before; all bounds; every timing of all other events within the bounds; every state of the links between other brokers; every schedule of the receive loops while the tables do not change; every message and topic", "why_tests_cant": "Which brokers forward a topic, and whether the user is registered at one broker only, depends on the whole history of syncs, moves and crashes and on the timing of concurrent syncs; a test publishes after a generous sleep with nothing failing.", "anchors": ["cdn-broker/src/tasks/broker/sync.rs:43-145", "cdn-broker/src/tasks/broker/handler.rs:92-118", "cdn-broker/src/tasks/broker/handler.rs:240-272", "cdn-broker/src/connections/mod.rs:154-183"]}
