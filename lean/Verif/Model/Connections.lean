import Verif.Model.VersionedMap
import Verif.Model.RelationalMap

/-!
# Model of `cdn-broker/src/connections/mod.rs` and `connections/broadcast/mod.rs`

Type parameters: `U` user public keys (`Arc<Vec<u8>>`), `B` broker identifiers (with their order),
`T` topics (`u8`), `H` connections.  A Rust `(Connection, AbortHandle)` pair is one token of type `H`:
the model never looks inside it.  Effects that leave the data structure (aborting a task, the two
Prometheus gauges) are recorded in extra fields.  Log output is dropped.

Every method takes the whole structure; in the code each is called under `RwLock::read`/`write`
(`cdn-broker/src/lib.rs`), so it is atomic with respect to other tasks.
-/

namespace Verif

/-- broadcast/mod.rs:19-24 `SubscriptionStatus`. -/
inductive SubStatus where
  | subscribed
  | unsubscribed
deriving DecidableEq, Repr

/-- broadcast/mod.rs:26 `TopicSyncMap = VersionedMap<Topic, SubscriptionStatus, u32>`. -/
abbrev TopicSync (T : Type) := VMap T SubStatus Nat

/-- direct/mod.rs `DirectMap = VersionedMap<UserPublicKey, BrokerIdentifier, BrokerIdentifier>`. -/
abbrev DirectMap (U B : Type) := VMap U B B

/-- connections/mod.rs:34-38 `Broker` (connection and abort handle are one token). -/
structure BrokerEntry (T H : Type) where
  handle : H
  topicSync : TopicSync T

/-- connections/mod.rs:40-54 `Connections` with the fields of `BroadcastMap`
(broadcast/mod.rs:30-36) inlined, plus recorded effects. -/
structure Conns (U B T H : Type) where
  identity : B
  users : AMap U H
  brokers : AMap B (BrokerEntry T H)
  direct : DirectMap U B
  /-- `broadcast_map.users` -/
  bcUsers : RMap U T
  /-- `broadcast_map.brokers` -/
  bcBrokers : RMap B T
  /-- `broadcast_map.topic_sync_map` -/
  topicSync : TopicSync T
  /-- `broadcast_map.previous_subscribed_topics` -/
  prev : FSet T
  /-- effect: tokens whose task was aborted, latest first -/
  aborted : List H
  /-- effect: `metrics::NUM_USERS_CONNECTED` -/
  gaugeUsers : Int
  /-- effect: `metrics::NUM_BROKERS_CONNECTED` -/
  gaugeBrokers : Int

namespace Conns
variable {U B T H : Type} [DecidableEq U] [DecidableEq B] [DecidableEq T] [DecidableEq H]
  [LT B] [DecidableLT B]

/-- connections/mod.rs:58-66 `new`, with broadcast/mod.rs:39-48. -/
def new (identity : B) : Conns U B T H where
  identity := identity
  users := AMap.empty
  brokers := AMap.empty
  direct := VMap.new identity
  bcUsers := RMap.new
  bcBrokers := RMap.new
  topicSync := VMap.new 0
  prev := FSet.empty
  aborted := []
  gaugeUsers := 0
  gaugeBrokers := 0

/-- connections/mod.rs:69-71 `get_broker_identifier_of_user`. -/
def getBrokerOfUser (s : Conns U B T H) (u : U) : Option B := s.direct.get u

/-- connections/mod.rs:74-81 `get_broker_connection`. -/
def getBrokerConnection (s : Conns U B T H) (b : B) : Option H := (s.brokers.get b).map (·.handle)

/-- connections/mod.rs:84-86 `get_user_connection`. -/
def getUserConnection (s : Conns U B T H) (u : U) : Option H := s.users.get u

/-- connections/mod.rs:89-91 `get_broker_identifiers` and 241-243 `all_brokers`. -/
def allBrokers (s : Conns U B T H) : List B := s.brokers.keys

/-- connections/mod.rs:247-249 `all_users`. -/
def allUsers (s : Conns U B T H) : List U := s.users.keys

/-- connections/mod.rs:127-129 `num_users`. -/
def numUsers (s : Conns U B T H) : Nat := s.users.size

/-- connections/mod.rs:94-124 `get_interested_by_topic`: (brokers, users). -/
def getInterestedByTopic (s : Conns U B T H) (topics : List T) (toUsersOnly : Bool) :
    List B × List U :=
  let r := topics.foldl
    (fun (acc : FSet B × FSet U) t =>
      ( if toUsersOnly then acc.1 else acc.1.insertMany (s.bcBrokers.getKeysByValue t),
        acc.2.insertMany (s.bcUsers.getKeysByValue t)))
    (FSet.empty, FSet.empty)
  (r.1.elems, r.2.elems)

/-- connections/mod.rs:133-139 `get_full_user_sync` (a clone: it keeps the private
`locally_modified_keys`, which the receiver never reads). -/
def getFullUserSync (s : Conns U B T H) : Option (DirectMap U B) :=
  if s.direct.map.isEmpty then none else some s.direct

/-- connections/mod.rs:143-150 `get_partial_user_sync`. -/
def getPartialUserSync (s : Conns U B T H) : Conns U B T H × Option (DirectMap U B) :=
  let d := s.direct.diff
  ({ s with direct := d.1 }, if d.2.isEmpty then none else some d.2)

/-- connections/mod.rs:308-324 `remove_broker` (the `remove_by_value_no_modify` call is commented out
in the source). -/
def removeBroker (s : Conns U B T H) (b : B) : Conns U B T H :=
  let s := match s.brokers.get b with
    | some e => { s with
        brokers := s.brokers.erase b
        gaugeBrokers := s.gaugeBrokers - 1
        aborted := e.handle :: s.aborted }
    | none => s
  { s with bcBrokers := s.bcBrokers.removeKey b }

/-- connections/mod.rs:330-351 `remove_user`. -/
def removeUser (s : Conns U B T H) (u : U) : Conns U B T H :=
  let s := match s.users.get u with
    | some h => { s with
        users := s.users.erase u
        gaugeUsers := s.gaugeUsers - 1
        aborted := h :: s.aborted }
    | none => s
  { s with
    bcUsers := s.bcUsers.removeKey u
    direct := s.direct.removeIfEquals u s.identity }

/-- connections/mod.rs:154-162 `apply_user_sync`. -/
def applyUserSync (s : Conns U B T H) (remote : DirectMap U B) : Conns U B T H :=
  let r := s.direct.merge remote
  r.2.foldl (fun s c => s.removeUser c.1) { s with direct := r.1 }

/-- connections/mod.rs:354-362 `subscribe_broker_to`. -/
def subscribeBroker (s : Conns U B T H) (b : B) (ts : List T) : Conns U B T H :=
  { s with bcBrokers := s.bcBrokers.associate b ts }

/-- connections/mod.rs:365-369 `subscribe_user_to`. -/
def subscribeUser (s : Conns U B T H) (u : U) (ts : List T) : Conns U B T H :=
  { s with bcUsers := s.bcUsers.associate u ts }

/-- connections/mod.rs:372-380 `unsubscribe_broker_from`. -/
def unsubscribeBroker (s : Conns U B T H) (b : B) (ts : List T) : Conns U B T H :=
  { s with bcBrokers := s.bcBrokers.dissociate b ts }

/-- connections/mod.rs:383-387 `unsubscribe_user_from`. -/
def unsubscribeUser (s : Conns U B T H) (u : U) (ts : List T) : Conns U B T H :=
  { s with bcUsers := s.bcUsers.dissociate u ts }

/-- One iteration of the loop of `apply_topic_sync`, connections/mod.rs:181-190. -/
def applyTopicChange (b : B) (s : Conns U B T H) (c : T × Option SubStatus) : Conns U B T H :=
  if c.2 = some SubStatus.subscribed then s.subscribeBroker b [c.1] else s.unsubscribeBroker b [c.1]

/-- connections/mod.rs:165-191 `apply_topic_sync`. -/
def applyTopicSync (s : Conns U B T H) (b : B) (remote : TopicSync T) : Conns U B T H :=
  match s.brokers.get b with
  | none => s.removeBroker b
  | some e =>
    let r := e.topicSync.merge remote
    r.2.foldl (applyTopicChange b) { s with brokers := s.brokers.insert b { e with topicSync := r.1 } }

/-- connections/mod.rs:195-201 `get_full_topic_sync`. -/
def getFullTopicSync (s : Conns U B T H) : Option (TopicSync T) :=
  if s.topicSync.map.isEmpty then none else some s.topicSync

/-- connections/mod.rs:205-237 `get_partial_topic_sync`. -/
def getPartialTopicSync (s : Conns U B T H) : Conns U B T H × Option (TopicSync T) :=
  let now : FSet T := FSet.ofList s.bcUsers.getValues
  let added := now.diff s.prev
  let removed := s.prev.diff now
  if added.isEmpty && removed.isEmpty then (s, none)
  else
    let m := added.foldl (fun m t => VMap.insert m t SubStatus.subscribed) s.topicSync
    let m := removed.foldl (fun m t => VMap.insert m t SubStatus.unsubscribed) m
    let d := m.diff
    ({ s with prev := now, topicSync := d.1 }, some d.2)

/-- connections/mod.rs:252-274 `add_broker`. -/
def addBroker (s : Conns U B T H) (b : B) (h : H) : Conns U B T H :=
  let s := { s with gaugeBrokers := s.gaugeBrokers + 1 }
  let s := s.removeBroker b
  { s with brokers := s.brokers.insert b ⟨h, VMap.new 0⟩ }

/-- connections/mod.rs:278-304 `add_user`. -/
def addUser (s : Conns U B T H) (u : U) (h : H) (ts : List T) : Conns U B T H :=
  let s := { s with gaugeUsers := s.gaugeUsers + 1 }
  let s := s.removeUser u
  { s with
    users := s.users.insert u h
    direct := s.direct.insert u s.identity
    bcUsers := s.bcUsers.associate u ts }

/-- Every state-changing call another task can make on the shared structure. -/
inductive Op (U B T H : Type) where
  | addUser (u : U) (h : H) (ts : List T)
  | removeUser (u : U)
  | addBroker (b : B) (h : H)
  | removeBroker (b : B)
  | subscribeUser (u : U) (ts : List T)
  | unsubscribeUser (u : U) (ts : List T)
  | subscribeBroker (b : B) (ts : List T)
  | unsubscribeBroker (b : B) (ts : List T)
  | applyUserSync (m : DirectMap U B)
  | applyTopicSync (b : B) (m : TopicSync T)
  | partialUserSync
  | partialTopicSync

/-- State after one call (the returned value, if any, is dropped). -/
def step (s : Conns U B T H) : Op U B T H → Conns U B T H
  | .addUser u h ts => s.addUser u h ts
  | .removeUser u => s.removeUser u
  | .addBroker b h => s.addBroker b h
  | .removeBroker b => s.removeBroker b
  | .subscribeUser u ts => s.subscribeUser u ts
  | .unsubscribeUser u ts => s.unsubscribeUser u ts
  | .subscribeBroker b ts => s.subscribeBroker b ts
  | .unsubscribeBroker b ts => s.unsubscribeBroker b ts
  | .applyUserSync m => s.applyUserSync m
  | .applyTopicSync b m => s.applyTopicSync b m
  | .partialUserSync => s.getPartialUserSync.1
  | .partialTopicSync => s.getPartialTopicSync.1

/-- State after any sequence of calls, i.e. after any schedule of the broker's tasks. -/
def run (s : Conns U B T H) (ops : List (Op U B T H)) : Conns U B T H := ops.foldl step s

end Conns
end Verif
