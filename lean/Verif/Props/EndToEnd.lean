import Verif.Props.Network
import Verif.Props.Codec

/-!
# Properties C80, C81: what users read is what users sent

C80: whatever happens to the tables, the links and the sends, a user only ever receives frames that users
published, unchanged, and only those meant for them. C81: in a mesh at rest, with the real wire format, the
messages read at one end are the messages written at the other.
-/

set_option linter.unusedSectionVars false

namespace Verif.Props.EndToEnd
open Verif Verif.Conns Verif.Broker Verif.Net Verif.Props.Network
open scoped Verif.Props.Codec

variable {B H σ : Type} [DecidableEq B] [DecidableEq H] [LT B] [DecidableLT B]

/-! ## C80 -/

/-- In the history some user or some broker sent this frame: its number, its sender and its bytes. -/
def Sent (ls : List (Label B H)) (p : Pkt) : Prop :=
  (∃ b, Label.publish b p.src p.id p.raw ∈ ls) ∨ ∃ b b', Label.originate b b' p.id p.raw ∈ ls

/-- At some moment of the history user `u` was, at some broker, subscribed to topic `t`. -/
def WasSubscribed (cfg : Cfg B σ) (tab : B → Table B H) (hook : B → Dest B → σ) (ls : List (Label B H))
    (u : Bytes) (t : Topic) : Prop :=
  ∃ ls1, ls1 <+: ls ∧ ∃ b, u ∈ ((((start tab hook).run cfg ls1).tab b).getInterestedByTopic [t] true).2

/-- The frame is a direct message to `u`, or a broadcast on a topic `u` was subscribed to. -/
def MeantFor (cfg : Cfg B σ) (tab : B → Table B H) (hook : B → Dest B → σ) (ls : List (Label B H))
    (u raw : Bytes) : Prop :=
  (∃ payload, cfg.decode raw = some (.direct u payload)) ∨
  ∃ ts payload, cfg.decode raw = some (.broadcast ts payload) ∧ ∃ t ∈ ts, WasSubscribed cfg tab hook ls u t

theorem Sent.mono {ls ls' : List (Label B H)} (h : ∀ l ∈ ls, l ∈ ls') {p : Pkt} (hp : Sent ls p) : Sent ls' p :=
  hp.elim (fun ⟨b, hb⟩ => .inl ⟨b, h _ hb⟩) (fun ⟨b, b', hb⟩ => .inr ⟨b, b', h _ hb⟩)

theorem MeantFor.mono {cfg : Cfg B σ} {tab : B → Table B H} {hook : B → Dest B → σ} {ls ls' : List (Label B H)}
    (h : ls <+: ls') {u raw : Bytes} (hp : MeantFor cfg tab hook ls u raw) : MeantFor cfg tab hook ls' u raw := by
  rcases hp with hp | ⟨ts, p, h1, t, h2, ls1, h3, h4⟩
  · exact .inl hp
  · exact .inr ⟨ts, p, h1, t, h2, ls1, h3.trans h, h4⟩

theorem mem_prune {valid : Topic → Bool} {ts : List Topic} {t : Topic} (h : t ∈ (prune valid ts).1) : t ∈ ts := by
  exact (mem_dedup' ts t).1 (List.mem_filter.1 h).1

/-- A frame is routed to a user only if it is meant for them. -/
theorem route_user (cfg : Cfg B σ) (hT : Transparent cfg) (s : Table B H) (h : σ) (frm : Dest B) (raw u : Bytes)
    (hu : Dest.user u ∈ (route cfg s h frm raw).2.1) :
    (∃ payload, cfg.decode raw = some (.direct u payload)) ∨
    ∃ ts payload, cfg.decode raw = some (.broadcast ts payload) ∧
      ∃ t ∈ ts, u ∈ (s.getInterestedByTopic [t] true).2 := by
  have hdir : ∀ r o, Dest.user u ∈ directDests s r o → r = u := by
    intro r o hm
    unfold directDests at hm
    split at hm
    · simp at hm
    · split at hm
      · simpa [eq_comm] using hm
      · split at hm <;> simp at hm
  have hbc : ∀ ts o, Dest.user u ∈ broadcastDests s ts o → ∃ t ∈ ts, u ∈ (s.getInterestedByTopic [t] true).2 := by
    intro ts o hm
    have : u ∈ (s.getInterestedByTopic ts o).2 := by
      simpa [broadcastDests] using hm
    obtain ⟨t, h1, h2⟩ := ((mem_interested s ts o).1 u).1 this
    exact ⟨t, h1, ((mem_interested s [t] true).1 u).2 ⟨t, by simp, h2⟩⟩
  cases frm with
  | user a =>
    simp only [route, userRoute] at hu
    cases hd : cfg.decode raw with
    | none => simp [hd] at hu
    | some m =>
      simp only [hd, (hT h m).1] at hu
      cases m with
      | direct r p => exact .inl ⟨p, by rw [hdir _ _ hu]⟩
      | broadcast ts p =>
        dsimp only at hu
        split at hu
        · obtain ⟨t, h1, h2⟩ := hbc _ _ hu
          exact .inr ⟨ts, p, rfl, t, mem_prune h1, h2⟩
        · simp at hu
      | _ => simp at hu
  | broker a =>
    simp only [route, brokerRoute] at hu
    cases hd : cfg.decode raw with
    | none => simp [hd] at hu
    | some m =>
      simp only [hd, (hT h m).2] at hu
      cases m with
      | direct r p => exact .inl ⟨p, by rw [hdir _ _ hu]⟩
      | broadcast ts p =>
        obtain ⟨t, h1, h2⟩ := hbc _ _ hu
        exact .inr ⟨ts, p, rfl, t, h1, h2⟩
      | _ => simp at hu

/-- What holds of everything in the network. `P` is about the frames sent, `Q` about frames and users. -/
structure Inv (P : Pkt → Prop) (Q : Bytes → Pkt → Prop) (n : Net B H σ) : Prop where
  wire : ∀ i ∈ n.wire, P i.pkt
  pend : ∀ t ∈ n.pend, P t.pkt ∧ ∀ u, t.dest = .user u → Q u t.pkt
  inbox : ∀ e ∈ n.inbox, P e.2 ∧ Q e.1 e.2

theorem Inv.mono {P P' : Pkt → Prop} {Q Q' : Bytes → Pkt → Prop} {n : Net B H σ} (h : Inv P Q n)
    (hP : ∀ p, P p → P' p) (hQ : ∀ u p, Q u p → Q' u p) : Inv P' Q' n :=
  ⟨fun i hi => hP _ (h.wire i hi), fun t ht => ⟨hP _ (h.pend t ht).1, fun u hu => hQ _ _ ((h.pend t ht).2 u hu)⟩,
    fun e he => ⟨hP _ (h.inbox e he).1, hQ _ _ (h.inbox e he).2⟩⟩

theorem inv_step (cfg : Cfg B σ) (P : Pkt → Prop) (Q : Bytes → Pkt → Prop) (n : Net B H σ) (l : Label B H)
    (h : Inv P Q n) (hhop : ∀ p k, P p → P { p with hops := k })
    (hpub : ∀ b u id raw, l = .publish b u id raw → P ⟨id, u, raw, 0⟩)
    (horg : ∀ b b' id raw, l = .originate b b' id raw → P ⟨id, [], raw, 1⟩)
    (hroute : ∀ b frm p u, P p → Dest.user u ∈ (route cfg (n.tab b) (n.hook b frm) frm p.raw).2.1 → Q u p) :
    Inv P Q (n.step cfg l) := by
  cases l with
  | publish b u id raw =>
    refine ⟨fun i hi => ?_, h.pend, h.inbox⟩
    rcases List.mem_append.1 hi with hi | hi
    · exact h.wire i hi
    · rw [List.mem_singleton.1 hi]; exact hpub _ _ _ _ rfl
  | originate b b' id raw =>
    refine ⟨fun i hi => ?_, h.pend, h.inbox⟩
    rcases List.mem_append.1 hi with hi | hi
    · exact h.wire i hi
    · rw [List.mem_singleton.1 hi]; exact horg _ _ _ _ rfl
  | setTable b s => exact ⟨h.wire, h.pend, h.inbox⟩
  | take b frm =>
    simp only [Net.step]
    split
    · exact h
    · split
      · exact h
      · rename_i i hf
        have hi := h.wire i (List.mem_of_find?_eq_some hf)
        refine ⟨fun j hj => ?_, fun t ht => ?_, h.inbox⟩
        · dsimp only at hj
          split at hj
          · exact h.wire j (List.eraseP_subset hj)
          · exact h.wire j (List.mem_filter.1 hj).1
        · rcases List.mem_append.1 ht with ht | ht
          · exact h.pend t ht
          · obtain ⟨d, hd, rfl⟩ := List.mem_map.1 ht
            refine ⟨hi, fun u hu => ?_⟩
            dsimp only at hu
            subst hu
            exact hroute b frm i.pkt u hi hd
  | send b frm ok =>
    simp only [Net.step]
    split
    · exact h
    · rename_i t hf
      have ht := h.pend t (List.mem_of_find?_eq_some hf)
      have hp : ∀ t' ∈ n.pend.eraseP (Todo.for' b frm), P t'.pkt ∧ ∀ u, t'.dest = .user u → Q u t'.pkt :=
        fun t' ht' => h.pend t' (List.eraseP_subset ht')
      split
      · split
        · rename_i u hu
          refine ⟨h.wire, hp, fun e he => ?_⟩
          rcases List.mem_append.1 he with he | he
          · exact h.inbox e he
          · rw [List.mem_singleton.1 he]; exact ⟨ht.1, ht.2 u hu⟩
        · refine ⟨fun i hi => ?_, hp, h.inbox⟩
          rcases List.mem_append.1 hi with hi | hi
          · exact h.wire i hi
          · rw [List.mem_singleton.1 hi]; exact hhop _ _ ht.1
      · exact ⟨h.wire, hp, h.inbox⟩

theorem Sent.hop {ls : List (Label B H)} (p : Pkt) (k : Nat) (h : Sent ls p) : Sent ls { p with hops := k } := h

theorem sent_run (cfg : Cfg B σ) (tab : B → Table B H) (hook : B → Dest B → σ) (ls : List (Label B H)) :
    Inv (Sent ls) (fun _ _ => True) ((start tab hook).run cfg ls) := by
  have key : ∀ (post pre : List (Label B H)) (n : Net B H σ), Inv (Sent pre) (fun _ _ => True) n →
      Inv (Sent (pre ++ post)) (fun _ _ => True) (n.run cfg post) := by
    intro post
    induction post with
    | nil => intro pre n h; simpa [Net.run] using h
    | cons l post ih =>
      intro pre n h
      have h' : Inv (Sent (pre ++ [l])) (fun _ _ => True) n :=
        h.mono (fun p hp => hp.mono (by simp_all)) (fun _ _ _ => trivial)
      have := ih (pre ++ [l]) (n.step cfg l) (inv_step cfg _ _ n l h' (fun p k hp => hp.hop p k)
        (by rintro b u id raw rfl; exact .inl ⟨b, by simp⟩)
        (by rintro b b' id raw rfl; exact .inr ⟨b, b', by simp⟩) (fun _ _ _ _ _ _ => trivial))
      rw [List.append_assoc] at this
      exact this
  have := key ls [] (start tab hook) ⟨by simp [start], by simp [start], by simp [start]⟩
  simpa using this

/-- The brokers send each other nothing but user and topic syncs of their own. -/
def OnlySyncs (cfg : Cfg B σ) (ls : List (Label B H)) : Prop :=
  ∀ b b' id raw, Label.originate b b' id raw ∈ ls →
    ∃ d, cfg.decode raw = some (.userSync d) ∨ cfg.decode raw = some (.topicSync d)

theorem meant_run (cfg : Cfg B σ) (hT : Transparent cfg) (tab : B → Table B H) (hook : B → Dest B → σ)
    (ls : List (Label B H)) :
    Inv (fun _ => True) (fun u p => MeantFor cfg tab hook ls u p.raw) ((start tab hook).run cfg ls) := by
  have key : ∀ (post pre : List (Label B H)),
      Inv (fun _ => True) (fun u p => MeantFor cfg tab hook pre u p.raw) ((start tab hook).run cfg pre) →
      Inv (fun _ => True) (fun u p => MeantFor cfg tab hook (pre ++ post) u p.raw)
        (((start tab hook).run cfg pre).run cfg post) := by
    intro post
    induction post with
    | nil => intro pre h; simpa [Net.run] using h
    | cons l post ih =>
      intro pre h
      have h' := h.mono (P' := fun _ => True) (Q' := fun u p => MeantFor cfg tab hook (pre ++ [l]) u p.raw)
        (fun _ _ => trivial) (fun u p hp => hp.mono (List.prefix_append _ _))
      have hs := inv_step cfg _ _ _ l h' (fun _ _ _ => trivial) (fun _ _ _ _ _ => trivial)
        (fun _ _ _ _ _ => trivial) (fun b frm p u _ hu => by
          rcases route_user cfg hT _ _ frm p.raw u hu with hd | ⟨ts, pl, h1, t, h2, h3⟩
          · exact .inl hd
          · exact .inr ⟨ts, pl, h1, t, h2, pre, List.prefix_append _ _, b, h3⟩)
      have heq : (start tab hook).run cfg (pre ++ [l]) = ((start tab hook).run cfg pre).step cfg l := by
        simp [Net.run, List.foldl_append]
      have := ih (pre ++ [l]) (by rw [heq]; exact hs)
      rw [heq, List.append_assoc] at this
      exact this
  have := key ls [] ⟨by simp [start, Net.run], by simp [start, Net.run], by simp [start, Net.run]⟩
  simpa [Net.run] using this

/-- **C80 (unchanged).** From any tables, whatever becomes of the tables, of the links and of the sends, with any
message hooks: every frame a user has received was sent, with these very bytes, by the user named as its sender or
by a broker. -/
theorem C80_unchanged (cfg : Cfg B σ) (tab : B → Table B H) (hook : B → Dest B → σ) (ls : List (Label B H))
    (u : Bytes) (p : Pkt) (h : (u, p) ∈ ((start tab hook).run cfg ls).inbox) :
    (∃ b, Label.publish b p.src p.id p.raw ∈ ls) ∨ ∃ b b', Label.originate b b' p.id p.raw ∈ ls :=
  ((sent_run cfg tab hook ls).inbox _ h).1

/-- **C80 (meant for them).** From any tables, whatever becomes of the tables, of the links and of the sends: if the
hooks leave messages alone and brokers send nothing but syncs of their own, then every frame user `u` has received
was published by a user with these very bytes, and is a direct message to `u` or a broadcast on a topic `u` was
subscribed to at some moment. In particular a direct message reaches nobody but its recipient. -/
theorem C80_meant_for_them (cfg : Cfg B σ) (hT : Transparent cfg) (tab : B → Table B H) (hook : B → Dest B → σ)
    (ls : List (Label B H)) (ho : OnlySyncs cfg ls) (u : Bytes) (p : Pkt)
    (h : (u, p) ∈ ((start tab hook).run cfg ls).inbox) :
    (∃ b, Label.publish b p.src p.id p.raw ∈ ls) ∧
    ((∃ payload, cfg.decode p.raw = some (.direct u payload)) ∨
      ∃ ts payload, cfg.decode p.raw = some (.broadcast ts payload) ∧ ∃ t ∈ ts,
        ∃ ls1, ls1 <+: ls ∧ ∃ b, u ∈ ((((start tab hook).run cfg ls1).tab b).getInterestedByTopic [t] true).2) := by
  have hm := ((meant_run cfg hT tab hook ls).inbox _ h).2
  refine ⟨?_, hm⟩
  rcases C80_unchanged cfg tab hook ls u p h with h1 | ⟨b, b', h1⟩
  · exact h1
  · exfalso
    obtain ⟨d, hd⟩ := ho _ _ _ _ h1
    rcases hm with ⟨_, hm⟩ | ⟨_, _, hm, _⟩ <;> rcases hd with hd | hd <;> rw [hm] at hd <;> cases hd

/-- C80 while tables change: `[1]` sends `[2]` a direct message (7) and broadcasts on topic 0 (8). The link between the
brokers is used while broker 1 forgets its users and topics and gets them back; a send fails. `[2]` receives the
direct message, `[3]`, once subscribed to topic 0, the broadcast; broker 1 sends a user sync of its own. -/
example :
    let ls : List (Label Nat Nat) :=
      [.publish 0 [1] 7 [3, 2], .publish 0 [1] 8 [4, 0], .originate 0 1 99 [7], .take 0 (.user [1]),
       .send 0 (.user [1]) true, .setTable 1 ((Conns.new 1).run [.addUser [2] 12 [], .addUser [3] 13 [0], .addBroker 0 100]),
       .take 0 (.user [1]), .send 0 (.user [1]) true, .take 1 (.broker 0), .send 1 (.broker 0) true,
       .take 1 (.broker 0), .setTable 1 (demoTab 1), .send 1 (.broker 0) true, .send 0 (.user [1]) false]
    let n := (start demoTab (fun _ _ => 0)).run demoNet ls
    OnlySyncs demoNet ls ∧ n.inbox.map (fun e => (e.1, e.2.id, e.2.raw)) = [([2], 7, [3, 2]), ([3], 8, [4, 0])] := by
  refine ⟨?_, by decide +kernel⟩
  intro b b' id raw h
  simp only [List.mem_cons, List.not_mem_nil, or_false, reduceCtorEq, false_or, Label.originate.injEq] at h
  obtain ⟨_, _, _, rfl⟩ := h
  exact ⟨_, .inl rfl⟩

/-! ## C81 -/

/-- The messages of the frames numbered `k` that user `u` has received, as the client reads them. -/
def read (n : Net B H σ) (u : Bytes) (k : Nat) : List (Except Codec.Err Msg) :=
  (n.inbox.filter (fun e => e.1 = u ∧ e.2.id = k)).map (fun e => Codec.deserialize e.2.raw)

/-- The messages of the frames from user `a` that user `r` has received, in the order received, as the client reads
them. -/
def readFrom (n : Net B H σ) (a r : Bytes) : List (Except Codec.Err Msg) :=
  (n.inbox.filter (fun e => e.1 = r ∧ e.2.src = a)).map (fun e => Codec.deserialize e.2.raw)

/-- Broker and client use the same wire format. -/
def WireFormat (cfg : Cfg B σ) : Prop := ∀ raw, cfg.decode raw = (Codec.deserialize raw).toOption

theorem decode_serialize {cfg : Cfg B σ} (hw : WireFormat cfg) {pol : Codec.Policy} {m : Msg}
    (hlen : (Codec.serialize pol m).length ≤ Frame.maxMessageSize) :
    cfg.decode (Codec.serialize pol m) = some m := by
  rw [hw, Codec.C30_receivable pol m hlen]; rfl

theorem read_eq (cfg : Cfg B σ) (tab : B → Table B H) (hook : B → Dest B → σ) (ls : List (Label B H))
    (hl : ∀ l ∈ ls, Static cfg l) (k : Nat) (b : B) (a : Bytes) (pol : Codec.Policy) (m : Msg)
    (hlen : (Codec.serialize pol m).length ≤ Frame.maxMessageSize)
    (honce : ls.filter (publishes k) = [.publish b a k (Codec.serialize pol m)]) (u : Bytes) :
    read ((start tab hook).run cfg ls) u k =
      List.replicate (copiesReceived ((start tab hook).run cfg ls) u k) (.ok m) := by
  unfold read copiesReceived
  rw [List.countP_eq_length_filter, ← List.length_map (f := fun e : Bytes × Pkt => Codec.deserialize e.2.raw),
    List.eq_replicate_iff]
  refine ⟨rfl, fun x hx => ?_⟩
  obtain ⟨e, he, rfl⟩ := List.mem_map.1 hx
  obtain ⟨he, hk⟩ := List.mem_filter.1 he
  have hk : e.1 = u ∧ e.2.id = k := by simpa using hk
  rcases C80_unchanged cfg tab hook ls e.1 e.2 he with ⟨b', h1⟩ | ⟨b1, b2, h1⟩
  · have : Label.publish b' e.2.src e.2.id e.2.raw ∈ ls.filter (publishes k) :=
      List.mem_filter.2 ⟨h1, by simp [publishes, hk.2]⟩
    rw [honce, List.mem_singleton] at this
    have hraw : e.2.raw = Codec.serialize pol m := by injection this
    rw [hraw, Codec.C30_receivable pol m hlen]
  · exact (hl _ h1).elim

/-- **C81 (broadcast).** A synchronised mesh of any size as in C18, any schedule, and the real wire format. A user
publishes, once, the encoding of a broadcast that is not too long to be received. What a user who is connected and
subscribed to one of its valid topics reads is at every moment nothing or that broadcast, once; when everything in
flight is delivered it is that broadcast. Nobody else reads anything. -/
theorem C81_broadcast (cfg : Cfg B σ) (hT : Transparent cfg) (hw : WireFormat cfg) (M : B → Prop)
    (tab : B → Table B H) (home : Bytes → Option B) (sub : Bytes → Topic → Prop)
    (hm : Mesh M tab home) (hs : TopicsInSync cfg.valid M tab home sub) (hook : B → Dest B → σ)
    (ls : List (Label B H)) (hl : ∀ l ∈ ls, Static cfg l) (k : Nat) (b : B) (hb : M b) (a : Bytes)
    (pol : Codec.Policy) (ts : List Topic) (payload : Bytes)
    (hlen : (Codec.serialize pol (.broadcast ts payload)).length ≤ Frame.maxMessageSize)
    (honce : ls.filter (publishes k) = [.publish b a k (Codec.serialize pol (.broadcast ts payload))]) (u : Bytes) :
    let n := (start tab hook).run cfg ls
    let wants := (home u).isSome ∧ ∃ t ∈ ts, cfg.valid t = true ∧ sub u t
    (read n u k = [] ∨ read n u k = [.ok (.broadcast ts payload)]) ∧
    (¬ wants → read n u k = []) ∧
    (Quiescent n → wants → read n u k = [.ok (.broadcast ts payload)]) := by
  intro n wants
  obtain ⟨h1, h2, h3⟩ := C18_broadcast_exactly_once cfg hT M tab home sub hm hs hook ls hl k b hb a _ ts payload
    (decode_serialize hw hlen) honce u
  have hr := read_eq cfg tab hook ls hl k b a pol _ hlen honce u
  refine ⟨?_, fun h => ?_, fun hq h => ?_⟩
  · simp only [n]; rw [hr]
    rcases Nat.le_one_iff_eq_zero_or_eq_one.1 h1 with h | h <;> rw [h]
    · exact .inl rfl
    · exact .inr rfl
  · simp only [n]; rw [hr, h2 h]; rfl
  · simp only [n]; rw [hr, h3 hq h]; rfl

/-- **C81 (direct).** Likewise with user routing in sync: what the recipient, if connected, reads is at every moment
nothing or the direct message, once, and in the end that message. Nobody else reads anything. -/
theorem C81_direct (cfg : Cfg B σ) (hT : Transparent cfg) (hw : WireFormat cfg) (M : B → Prop)
    (tab : B → Table B H) (home : Bytes → Option B) (hm : Mesh M tab home)
    (hs : UsersInSync M tab home) (hook : B → Dest B → σ) (ls : List (Label B H))
    (hl : ∀ l ∈ ls, Static cfg l) (k : Nat) (b : B) (hb : M b) (a : Bytes) (pol : Codec.Policy) (r payload : Bytes)
    (hlen : (Codec.serialize pol (.direct r payload)).length ≤ Frame.maxMessageSize)
    (honce : ls.filter (publishes k) = [.publish b a k (Codec.serialize pol (.direct r payload))]) (u : Bytes) :
    let n := (start tab hook).run cfg ls
    (read n u k = [] ∨ read n u k = [.ok (.direct r payload)]) ∧
    (¬ (u = r ∧ (home r).isSome) → read n u k = []) ∧
    (Quiescent n → u = r → (home r).isSome → read n u k = [.ok (.direct r payload)]) := by
  intro n
  obtain ⟨h1, h2, h3⟩ := C19_direct_exactly_once cfg hT M tab home hm hs hook ls hl k b hb a _ r payload
    (decode_serialize hw hlen) honce u
  have hr := read_eq cfg tab hook ls hl k b a pol _ hlen honce u
  refine ⟨?_, fun h => ?_, fun hq h h' => ?_⟩
  · simp only [n]; rw [hr]
    rcases Nat.le_one_iff_eq_zero_or_eq_one.1 h1 with h | h <;> rw [h]
    · exact .inl rfl
    · exact .inr rfl
  · simp only [n]; rw [hr, h2 h]; rfl
  · simp only [n]; rw [hr, h3 hq h h']; rfl

/-- Is the message for user `r`: direct to `r`, or a broadcast on a valid topic `r` is subscribed to? -/
def For (valid : Topic → Bool) (sub : Bytes → Topic → Prop) (r : Bytes) : Msg → Prop
  | .direct r' _ => r' = r
  | .broadcast ts _ => ∃ t ∈ ts, valid t = true ∧ sub r t
  | _ => False

open Classical in
/-- The messages `a` published that are for `r`, in the order published; `msg` is the message with a number. -/
noncomputable def wrote (valid : Topic → Bool) (sub : Bytes → Topic → Prop) (msg : Nat → Msg) (a r : Bytes)
    (ls : List (Label B H)) : List Msg :=
  ls.flatMap (fun
    | .publish _ a' id _ => if a' = a ∧ For valid sub r (msg id) then [msg id] else []
    | _ => [])

/-- **C81 (order).** A synchronised mesh as in C20, any schedule, any number of publishers, the real wire format.
Everybody publishes encodings of messages not too long to be received. The messages a connected user `r` reads from
`a` are at every moment a prefix of the messages for `r` that `a` wrote, and in the end all of them: the same
messages, in the same order, none lost and none twice. -/
theorem C81_order (cfg : Cfg B σ) (hT : Transparent cfg) (hw : WireFormat cfg) (M : B → Prop)
    (tab : B → Table B H) (home : Bytes → Option B) (sub : Bytes → Topic → Prop)
    (hm : Mesh M tab home) (hts : TopicsInSync cfg.valid M tab home sub)
    (hus : UsersInSync M tab home) (hook : B → Dest B → σ) (ls : List (Label B H))
    (hl : ∀ l ∈ ls, Static cfg l) (a r : Bytes) (b0 bR : B) (hr : home r = some bR)
    (pol : Codec.Policy) (msg : Nat → Msg)
    (hpub : ∀ b a' id raw, Label.publish b a' id raw ∈ ls →
      M b ∧ (a' = a → b = b0) ∧ raw = Codec.serialize pol (msg id) ∧ raw.length ≤ Frame.maxMessageSize) :
    let n := (start tab hook).run cfg ls
    readFrom n a r <+: (wrote cfg.valid sub msg a r ls).map .ok ∧
    (Quiescent n → readFrom n a r = (wrote cfg.valid sub msg a r ls).map .ok) := by
  intro n
  have h20 := C20_fifo cfg hT M tab home sub hm hts hus hook ls hl a r b0 bR hr
    (fun b a' id raw h => ⟨(hpub b a' id raw h).1, (hpub b a' id raw h).2.1⟩)
  have hread : readFrom n a r = (receivedFrom n a r).map (fun k => .ok (msg k)) := by
    have : ∀ l : List (Bytes × Pkt), (∀ e ∈ l, e ∈ n.inbox) →
        (l.filter (fun e => e.1 = r ∧ e.2.src = a)).map (fun e => Codec.deserialize e.2.raw) =
        (l.flatMap (fun e => if e.1 = r ∧ e.2.src = a then [e.2.id] else [])).map (fun k => .ok (msg k)) := by
      intro l hin
      induction l with
      | nil => rfl
      | cons e l ih =>
        have ih := ih (fun e he => hin e (by simp [he]))
        by_cases hc : e.1 = r ∧ e.2.src = a
        · rw [List.filter_cons_of_pos (by simpa using hc), List.map_cons, ih, List.flatMap_cons, if_pos hc,
            List.map_append]
          have : Codec.deserialize e.2.raw = .ok (msg e.2.id) := by
            rcases C80_unchanged cfg tab hook ls e.1 e.2 (hin e (by simp)) with ⟨b', h1⟩ | ⟨b1, b2, h1⟩
            · obtain ⟨_, _, h2, h3⟩ := hpub _ _ _ _ h1
              rw [h2] at h3 ⊢
              exact Codec.C30_receivable pol _ h3
            · exact (hl _ h1).elim
          rw [this]; rfl
        · rw [List.filter_cons_of_neg (by simpa using hc), ih, List.flatMap_cons, if_neg hc, List.nil_append]
    exact this n.inbox (fun _ h => h)
  have hwrote : (sentTo cfg sub a r ls).map (fun k => (.ok (msg k) : Except Codec.Err Msg)) =
      (wrote cfg.valid sub msg a r ls).map .ok := by
    unfold sentTo wrote
    rw [List.map_flatMap, List.map_flatMap]
    apply flatMap_congr'
    intro l hmem
    cases l with
    | publish b a' id raw =>
      obtain ⟨_, _, h2, h3⟩ := hpub _ _ _ _ hmem
      have hd : cfg.decode raw = some (msg id) := by rw [h2] at h3 ⊢; exact decode_serialize hw h3
      have hiff : AddressedTo cfg sub r raw ↔ For cfg.valid sub r (msg id) := by
        unfold AddressedTo For
        rw [hd]
        cases msg id <;> rfl
      by_cases hc : a' = a ∧ AddressedTo cfg sub r raw
      · have hc' : a' = a ∧ For cfg.valid sub r (msg id) := ⟨hc.1, hiff.1 hc.2⟩
        simp only [if_pos hc, if_pos hc']; rfl
      · have hc' : ¬ (a' = a ∧ For cfg.valid sub r (msg id)) := fun h => hc ⟨h.1, hiff.2 h.2⟩
        simp only [if_neg hc, if_neg hc']; rfl
    | _ => rfl
  rw [hread, ← hwrote]
  exact ⟨h20.1.map _, fun hq => by rw [h20.2 hq]⟩

/-! ### A concrete run -/

/-- The demo configuration with the real wire format. -/
def realNet : Cfg Nat Nat := { demoNet with decode := fun raw => (Codec.deserialize raw).toOption }

theorem real_wire : WireFormat realNet := fun _ => rfl
theorem real_transparent : Transparent realNet := fun _ _ => ⟨rfl, rfl⟩

def demoMsg (k : Nat) : Msg :=
  if k = 7 then .direct [2] [10, 11] else if k = 8 then .broadcast [0, 1] [12] else .broadcast [1] []

def frame (k : Nat) : Bytes := Codec.serialize Codec.heap (demoMsg k)

def realSchedule : List (Label Nat Nat) :=
  [.publish 0 [1] 7 (frame 7), .publish 1 [2] 9 (frame 9), .publish 0 [1] 8 (frame 8), .take 0 (.user [1]),
    .send 0 (.user [1]) true, .take 1 (.user [2]), .take 0 (.user [1]), .send 0 (.user [1]) true,
    .send 0 (.user [1]) true, .take 1 (.broker 0), .send 1 (.broker 0) true, .take 1 (.broker 0),
    .send 1 (.user [2]) true, .send 1 (.broker 0) true, .send 1 (.broker 0) true]

theorem real_decode (k : Nat) (h : k = 7 ∨ k = 8 ∨ k = 9) : realNet.decode (frame k) = some (demoMsg k) := by
  rcases h with rfl | rfl | rfl <;> decide +kernel

/-- The schedule meets the hypotheses of C81 and ends with nothing in flight; `[2]` has read the direct message and
then the broadcast, `[3]` the broadcasts of both, `[1]` its own. -/
example :
    (∀ l ∈ realSchedule, Static realNet l) ∧
    realSchedule.filter (publishes 8) = [.publish 0 [1] 8 (frame 8)] ∧
    (∀ k ∈ [7, 8, 9], (frame k).length ≤ Frame.maxMessageSize) ∧
    (let n := (start demoTab (fun _ _ => 0)).run realNet realSchedule
     n.wire.length = 0 ∧ n.pend.length = 0 ∧
     readFrom n [1] [2] = [.ok (.direct [2] [10, 11]), .ok (.broadcast [0, 1] [12])] ∧
     readFrom n [2] [3] = [.ok (.broadcast [1] [])] ∧ read n [3] 8 = [.ok (.broadcast [0, 1] [12])] ∧
     read n [1] 8 = [.ok (.broadcast [0, 1] [12])] ∧ read n [2] 9 = []) := by
  refine ⟨?_, rfl, by decide +kernel, by decide +kernel⟩
  intro l hl
  simp only [realSchedule, List.mem_cons, List.not_mem_nil, or_false] at hl
  rcases hl with rfl | rfl | rfl | rfl | rfl | rfl | rfl | rfl | rfl | rfl | rfl | rfl | rfl | rfl | rfl
  all_goals first | rfl | trivial | skip
  all_goals simp only [Static, Good, real_decode 8 (by simp), real_decode 9 (by simp)]
  · exact ⟨1, by simp, rfl⟩
  · exact ⟨0, by simp, rfl⟩

end Verif.Props.EndToEnd
