import Verif.Model.Connections
import Verif.Model.Broker
import Verif.Model.Codec
import Verif.Model.Discovery

/-!
# The project's own tests, replayed on the model

The code cannot be run here. Its tests say what it does on some inputs; below the model is run on the same inputs, and the same
assertions are checked. These are tests of the model, not properties: no claim rests on them.

Not replayed: tests of the signature scheme (`signature.rs`) and of real transports (`tcp.rs`, `tcp_tls.rs`, `quic.rs`), which are
parameters of the model, and `memory.rs`. The tests under `tests/src/tests` start whole systems; of them the parts that are decided
by the broker's table, by its receive loop and by the discovery store are replayed.
-/

namespace Verif.Replay

/-! ## `cdn-broker/src/connections/versioned_map.rs:272-377` -/

abbrev VM := VMap String String Nat

/-- `test_insert_remove` -/
example :
    let m : VM := (VMap.new 0 : VM).insert "user0" "broker0"
    m.get "user0" = some "broker0" ∧ (m.remove "user0").get "user0" = none := by decide +kernel

/-- `test_conflict` -/
example :
    let m0 : VM := (VMap.new 0 : VM).insert "user0" "broker0"
    let m1 : VM := (VMap.new 1 : VM).insert "user0" "broker1"
    let m0' := (m0.merge m1.getFull).1
    let m1' := (m1.merge m0'.getFull).1
    m0'.get "user0" = some "broker1" ∧ m1'.get "user0" = some "broker1" := by decide +kernel

/-- `test_partial` -/
example :
    let m0 : VM := (VMap.new 0 : VM).insert "user0" "broker0"
    let m0 := m0.diff.1
    let m0 := m0.insert "user1" "broker0"
    let d := m0.diff
    let m0 := d.1
    let m1 : VM := ((VMap.new 1 : VM).merge d.2).1
    let a := m1.get "user0" = none ∧ m1.get "user1" = some "broker0"
    let m1 := (m1.merge m0.getFull).1
    let b := m1.get "user0" = some "broker0"
    let m1 := m1.remove "user0"
    let m0 := (m0.merge m1.diff.2).1
    a ∧ b ∧ m0.get "user0" = none := by decide +kernel

/-- `test_purge` -/
example :
    let m : VM := ((VMap.new 0 : VM).insert "user0" "broker0").insert "user1" "broker0"
    let m := m.insert "user2" "broker1"
    let p := m.removeByValueNoModify "broker0"
    m.get "user0" = some "broker0" ∧ m.get "user1" = some "broker0" ∧ m.get "user2" = some "broker1" ∧
      p.get "user0" = none ∧ p.get "user1" = none ∧ p.get "user2" = some "broker1" ∧ p.diff.2.map.size = 1 := by decide +kernel

/-! ## `cdn-broker/src/connections/broadcast/relational_map.rs:122-347` -/

abbrev RM := RMap String Nat

def same {A : Type} [DecidableEq A] (a b : List A) : Bool := b.all (a.contains ·) && a.all (b.contains ·)

def valuesOf (m : RM) (k : String) : Option (List Nat) := (m.k2v.get k).map (·.elems)
def keysOf (m : RM) (v : Nat) : Option (List String) := (m.v2k.get v).map (·.elems)

def start2 : RM := ((RMap.new : RM).associate "user0" [0, 1, 2]).associate "user1" [1, 2]

/-- `test_relational` -/
example :
    let m := start2
    let m1 := m.dissociate "user0" [1]
    let m2 := m1.removeKey "user1"
    let m3 := m2.dissociate "user0" [2]
    let m4 := m3.dissociate "user0" [0]
    m.getKeysByValue 0 = ["user0"] ∧ same (m.getKeysByValue 1) ["user0", "user1"] = true ∧
      m1.getKeysByValue 1 = ["user1"] ∧ same (m2.getKeysByValue 2) ["user0"] = true ∧
      m3.getKeysByValue 1 = [] ∧ 1 ∉ m3.getValues ∧ m3.k2v.size = 1 ∧ m3.v2k.size = 1 ∧
      m4.k2v.isEmpty = true ∧ m4.v2k.isEmpty = true := by decide +kernel

/-- `test_relational_association` -/
example :
    let m := start2.dissociate "user0" [1]
    let m1 := m.dissociate "user0" [0]
    let m2 := m1.dissociate "user1" [1, 2]
    same (m.getKeysByValue 0) ["user0"] = true ∧ same (m.getKeysByValue 1) ["user1"] = true ∧
      same (m.getKeysByValue 2) ["user0", "user1"] = true ∧ (valuesOf m "user1").any (same · [1, 2]) = true ∧
      (valuesOf m "user0").any (same · [0, 2]) = true ∧ m.getValues.length = 3 ∧ m.k2v.size = 2 ∧
      same (m1.getKeysByValue 0) [] = true ∧ same (m1.getKeysByValue 1) ["user1"] = true ∧
      same (m1.getKeysByValue 2) ["user0", "user1"] = true ∧ (valuesOf m1 "user1").any (same · [1, 2]) = true ∧
      (valuesOf m1 "user0").any (same · [2]) = true ∧ same m1.getValues [1, 2] = true ∧
      same (m2.getKeysByValue 0) [] = true ∧ same (m2.getKeysByValue 1) [] = true ∧
      same (m2.getKeysByValue 2) ["user0"] = true ∧ valuesOf m2 "user1" = none ∧
      (valuesOf m2 "user0").any (same · [2]) = true := by decide +kernel

/-- `test_relational_remove` -/
example :
    let m : RM := ((RMap.new : RM).associate "user0" [0, 1, 2]).associate "user1" [1, 2, 3]
    let m1 := m.removeKey "user1"
    let m2 := m1.removeKey "user0"
    (valuesOf m "user0").any (same · [0, 1, 2]) = true ∧ (valuesOf m "user1").any (same · [1, 2, 3]) = true ∧
      (keysOf m 0).any (same · ["user0"]) = true ∧ (keysOf m 1).any (same · ["user0", "user1"]) = true ∧
      (keysOf m 2).any (same · ["user0", "user1"]) = true ∧ (keysOf m 3).any (same · ["user1"]) = true ∧
      (valuesOf m1 "user0").any (same · [0, 1, 2]) = true ∧ valuesOf m1 "user1" = none ∧
      (keysOf m1 0).any (same · ["user0"]) = true ∧ (keysOf m1 1).any (same · ["user0"]) = true ∧
      (keysOf m1 2).any (same · ["user0"]) = true ∧ keysOf m1 3 = none ∧ 3 ∉ m1.getValues ∧
      valuesOf m2 "user0" = none ∧ m2.v2k.isEmpty = true ∧ m2.k2v.isEmpty = true := by decide +kernel

/-! ## `cdn-broker/src/connections/mod.rs:390-527`. Topic 0 is `Global`, topic 1 is `DA`. -/

abbrev Cn := Conns (List UInt8) String UInt8 Unit

def localMap : Cn := (Conns.new "test/local" : Cn).addBroker "test/remote" ()
def remoteMap : Cn := ((Conns.new "test/remote" : Cn).addBroker "test/local" ()).subscribeUser [1] [0, 1]

def interested (s : Cn) (t : UInt8) : List String := (s.getInterestedByTopic [t] false).1

/-- `apply_topic_sync(.., sync.unwrap())`; `none` is the panic. -/
def applied (s : Cn) : Option (TopicSync UInt8) → Option Cn
  | some d => some (s.applyTopicSync "test/remote" d)
  | none => none

/-- `test_topic_sync` -/
example :
    let p1 := remoteMap.getPartialTopicSync
    let l1 := applied localMap p1.2
    let p2 := (p1.1.unsubscribeUser [1] [0]).getPartialTopicSync
    let l2 := l1.bind (applied · p2.2)
    remoteMap.getFullTopicSync.isNone = true ∧
      l1.map (interested · 0) = some ["test/remote"] ∧ l1.map (interested · 1) = some ["test/remote"] ∧
      l2.map (interested · 0) = some [] ∧ l2.map (interested · 1) = some ["test/remote"] := by decide +kernel

/-- `test_topic_sync_out_of_order` -/
example :
    let p1 := remoteMap.getPartialTopicSync
    let p2 := ((p1.1.unsubscribeUser [1] [0]).unsubscribeUser [1] [1]).getPartialTopicSync
    let l1 := applied localMap p2.2
    let p3 := (p2.1.subscribeUser [1] [1]).getPartialTopicSync
    let l2 := l1.bind (applied · p3.2)
    let l3 := l2.bind (applied · p3.1.getFullTopicSync)
    l3.map (interested · 0) = some [] ∧ l3.map (interested · 1) = some ["test/remote"] := by decide +kernel

/-! ## `cdn-broker/src/tests`: one broker with users and brokers put into its table -/

open Verif.Broker Verif.Disc

/-- A map as `inject_brokers` makes it is sent as its number here (`rkyv` is a parameter of the model). -/
def wireCfg (um : UInt8 → DirectMap Bytes Nat) (tm : UInt8 → TopicSync Topic) : Broker.Cfg Nat Unit where
  decode raw := (Codec.deserialize raw).toOption
  decUserSync | [i] => some (um i) | _ => none
  decTopicSync | [i] => some (tm i) | _ => none
  valid := testTopic
  userHook h m := (h, m, .process)
  brokerHook h m := (h, m, .process)

def key (i : UInt8) : Bytes := [i, 0, 0, 0, 0, 0, 0, 0]

def ser (m : Msg) : Bytes := Codec.serialize Codec.heap m

/-- Nothing else happens meanwhile, and sending succeeds. -/
def quiet : Sched Nat Nat := fun _ => ⟨[], true, []⟩

/-- `inject_users`: user `i` with these topics gets connection `100 + i`. -/
def withUsers (us : List (UInt8 × List Topic)) (s : Table Nat Nat) : Table Nat Nat :=
  us.foldl (fun s u => s.addUser (key u.1) (100 + u.1.toNat) u.2) s

/-- `inject_brokers`: broker `i` is number `i + 1`, since the broker under test comes first (its identifier is empty), and has
connection `200 + i`; it announces the topics of its users and its users, in two frames. -/
def withBrokers (bs : List (UInt8 × List (UInt8 × List Topic))) (s : Table Nat Nat) : Table Nat Nat :=
  let tm : UInt8 → TopicSync Topic := fun i =>
    ((((bs.lookup i).getD []).flatMap (·.2)).foldl (fun (m : TopicSync Topic) t => m.insert t .subscribed) (VMap.new 0)).diff.2
  let um : UInt8 → DirectMap Bytes Nat := fun i =>
    (((bs.lookup i).getD []).foldl (fun (m : DirectMap Bytes Nat) u => m.insert (key u.1) i.toNat) (VMap.new i.toNat)).diff.2
  bs.foldl (fun s b =>
    let s := s.addBroker b.1.toNat (199 + b.1.toNat)
    let o := brokerFrame (wireCfg um tm) s () b.1.toNat (ser (.topicSync [b.1])) quiet
    (brokerFrame (wireCfg um tm) o.table () b.1.toNat (ser (.userSync [b.1])) quiet).table) s

def noMaps : Broker.Cfg Nat Unit := wireCfg (fun _ => VMap.new 0) (fun _ => VMap.new 0)

/-- Who gets a copy when a user, or a broker, sends `m`: the numbers of the connections, or `none` if something else than `m` is
sent. -/
def copies (l : List (Sent Nat Nat)) (raw : Bytes) : Option (List Nat) :=
  if l.all (fun x => x.bytes == raw && x.ok) then some (l.map (·.conn)) else none

def fromUser (s : Table Nat Nat) (i : UInt8) (m : Msg) : Option (List Nat) :=
  copies (userFrame noMaps s () (key i) (ser m) quiet).sent (ser m)

def fromBroker (s : Table Nat Nat) (i : Nat) (m : Msg) : Option (List Nat) :=
  copies (brokerFrame noMaps s () i (ser m) quiet).sent (ser m)

def sameCopies (a : Option (List Nat)) (b : List Nat) : Bool := a.any (fun l => l.length == b.length && same l b)

/-- The definition used by both tests in `broadcast.rs`. -/
def broadcastRun : Table Nat Nat :=
  withBrokers [(1, [(3, [1])]), (2, [(4, [0, 1])]), (3, [(5, [])])]
    (withUsers [(0, [0, 1]), (1, [1]), (2, [0])] (Conns.new 0))

/-- `test_broadcast_user` -/
example :
    sameCopies (fromUser broadcastRun 0 (.broadcast [0] [1, 2, 3])) [100, 102, 201] = true ∧
    sameCopies (fromUser broadcastRun 2 (.broadcast [1] [1, 2, 3])) [100, 101, 200, 201] = true := by decide +kernel

/-- `test_broadcast_broker` -/
example :
    sameCopies (fromBroker broadcastRun 3 (.broadcast [0] [1, 2, 3])) [100, 102] = true ∧
    sameCopies (fromBroker broadcastRun 2 (.broadcast [1] [1, 2, 3])) [100, 101] = true := by decide +kernel

/-- `test_direct_user_to_user` -/
example :
    let s := withBrokers [(1, [(2, [1])]), (2, [(3, [])]), (3, [(4, [])])] (withUsers [(0, [0]), (1, [1])] (Conns.new 0))
    sameCopies (fromUser s 0 (.direct (key 0) [1])) [100] = true ∧
      sameCopies (fromUser s 1 (.direct (key 1) [1])) [101] = true := by decide +kernel

def directRun : Table Nat Nat :=
  withBrokers [(1, [(2, [])]), (2, [(3, [1])]), (3, [(4, [])])] (withUsers [(0, [0]), (1, [0, 1])] (Conns.new 0))

/-- `test_direct_user_to_broker` -/
example : sameCopies (fromUser directRun 0 (.direct (key 2) [1])) [200] = true := by decide +kernel

/-- `test_direct_broker_to_user` -/
example : sameCopies (fromBroker directRun 2 (.direct (key 2) [1])) [] = true := by decide +kernel

/-! ## `cdn-proto/src/message.rs:398-455`, `test_serialization_parity` -/

example : ∀ m ∈ [Msg.authKey [0, 1, 2] 345 [6, 7, 8], .authPermit 1234, .authResponse 1234 "1234", .direct [0, 1, 2] [3, 4, 5],
      .broadcast [0, 1, 99] [0, 1, 2], .subscribe [0, 1, 99], .unsubscribe [0, 1, 99], .userSync [0, 1]],
    (Codec.deserialize (ser m)).toOption = some m := by decide +kernel

/-! ## `tests/src/tests` -/

/-- `basic_connect.rs`: a direct message to oneself. -/
example :
    let s := withUsers [(0, [0])] (Conns.new 0)
    fromUser s 0 (.direct (key 0) [104, 105]) = some [100] := by decide +kernel

/-- `subscribe.rs`, `test_subscribe`: what the client gets after each step. -/
example :
    let s := withUsers [(0, [0])] (Conns.new 0)
    let s1 := (userFrame noMaps s () (key 0) (ser (.subscribe [1])) quiet).table
    let s2 := (userFrame noMaps s1 () (key 0) (ser (.unsubscribe [1])) quiet).table
    fromUser s 0 (.broadcast [0] [1]) = some [100] ∧ fromUser s 0 (.broadcast [1] [1]) = some [] ∧
      fromUser s1 0 (.broadcast [1] [1]) = some [100] ∧ fromUser s2 0 (.broadcast [1] [1]) = some [] := by decide +kernel

/-- `subscribe.rs`, `test_invalid_subscribe` and `test_invalid_unsubscribe`: the user is disconnected. -/
example :
    let s := withUsers [(0, [])] (Conns.new 0)
    let one (m : Msg) : List (Recv Nat Nat) := [⟨[], some (ser m), quiet⟩]
    let o1 := userLoop noMaps s () (key 0) (one (.subscribe [99]))
    let o2 := userLoop noMaps s () (key 0) (one (.unsubscribe [99]))
    o1.running = false ∧ o1.table.getUserConnection (key 0) = none ∧
      o2.running = false ∧ o2.table.getUserConnection (key 0) = none := by decide +kernel

/-- `double_connect.rs`, `test_double_connect_same_broker`: the later connection is the one in the table. -/
example :
    let s := ((Conns.new 0 : Table Nat Nat).addUser (key 1) 100 [0]).addUser (key 1) 101 [0]
    s.getUserConnection (key 1) = some 101 ∧ fromUser s 1 (.direct (key 1) [1]) = some [101] := by decide +kernel

/-- `double_connect.rs`, `test_double_connect_different_broker`: the user connects to broker 0, then to broker 1, and broker 1's
user sync arrives at broker 0: it drops its connection and sends on to broker 1. -/
example :
    let b0 := ((Conns.new 0 : Table Nat Nat).addBroker 1 201).addUser (key 1) 100 [0]
    let b0 := b0.getPartialUserSync
    let b1 := (Conns.new 1 : Table Nat Nat).addBroker 0 200
    let b1 := match b0.2 with
      | some d => b1.applyUserSync d
      | none => b1
    let b1 := (b1.addUser (key 1) 101 [0]).getPartialUserSync
    let b0 := match b1.2 with
      | some d => b0.1.applyUserSync d
      | none => b0.1
    b0.getUserConnection (key 1) = none ∧ b1.1.getUserConnection (key 1) = some 101 ∧
      fromUser b0 2 (.direct (key 1) [1]) = some [201] ∧ fromUser b1.1 1 (.direct (key 1) [1]) = some [101] := by
  decide +kernel

/-- `double_connect.rs:104-126`: the marshal's choice follows the numbers of connections. -/
example :
    let i0 : BrokerId := ⟨"a".toList, "b".toList⟩
    let i1 : BrokerId := ⟨"c".toList, "d".toList⟩
    let s := ((Emb.new.heartbeat i0 0 60 10).1.heartbeat i1 1 60 10).1
    let s' := (s.heartbeat i0 2 60 11).1
    (s.least 11).2 = some i0 ∧ (s'.least 12).2 = some i1 := by decide +kernel

/-- `whitelist.rs`: before and after `set_whitelist`. -/
example :
    let s := (Emb.new.setWhitelist [key 1])
    Emb.new.checkWhitelist (key 1) = true ∧ Emb.new.checkWhitelist (key 2) = true ∧ s.2 = true ∧
      s.1.checkWhitelist (key 1) = true ∧ s.1.checkWhitelist (key 2) = false := by decide +kernel

end Verif.Replay
