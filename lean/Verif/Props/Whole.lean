import Verif.Props.MeshTurn
import Verif.Props.EndToEnd

/-!
# Property C97: from brokers just started to the messages users read

The history of the tables (links, users who connect, move, leave and change their topics, syncs) and the publishing
that follows are composed: nothing is assumed of the routing tables, they are those the history has produced.
-/

set_option linter.unusedSectionVars false

namespace Verif.Props.Whole
open Verif Verif.Conns Verif.Broker Verif.Net
open Verif.Props.Mesh Verif.Props.MeshUsers Verif.Props.MeshTurn Verif.Props.Network Verif.Props.EndToEnd
open scoped Verif.Props.Codec

variable {B H σ : Type} [DecidableEq B] [DecidableEq H] [LT B] [DecidableLT B]

/-- The user has asked for the topic at the broker they are connected to. -/
def Wants (l1 l2 : List (MLabel Bytes B Topic H)) (u : Bytes) (t : Topic) : Prop :=
  ∃ b, whereabouts u l2 none = some b ∧ t ∈ asked b u (l1 ++ l2) []

/-- The history of a deployment that has come to rest: links come and go until every two brokers are linked and the
initial user syncs have been started, before any user connects; then users connect, move and leave, the changes of
each user in turn and different users concurrently, and change their topics; syncs run in any interleaving; in the
end everything about users and topics has been announced and has arrived. -/
structure Rested (valid : Topic → Bool) (l1 l2 : List (MLabel Bytes B Topic H)) : Prop where
  before : ∀ u, ∀ l ∈ l1, ¬ Connects u l
  linked : ∀ b b', b ≠ b' → Linked ((MNet.start : MNet Bytes B Topic H).run l1) b b'
  initial : ((MNet.start : MNet Bytes B Topic H).run l1).fullU = []
  turn : ∀ u, InTurn u ((MNet.start : MNet Bytes B Topic H).run l1) l2
  short : 2 * (l1 ++ l2).length < 2 ^ 64
  orderly : AllOrderly valid (MNet.start : MNet Bytes B Topic H) (l1 ++ l2)
  way : ∀ u, NothingUnderWay u ((MNet.start : MNet Bytes B Topic H).run (l1 ++ l2))
  announced : ∀ u b, ¬ Unannounced u ((MNet.start : MNet Bytes B Topic H).run (l1 ++ l2)) b
  topics : ∀ b b', b ≠ b' → TopicsSettled ((MNet.start : MNet Bytes B Topic H).run (l1 ++ l2)) b b'

theorem stable_rested {l1 l2 : List (MLabel Bytes B Topic H)} (hb : ∀ u, ∀ l ∈ l1, ¬ Connects u l)
    (hlk : ∀ b b', b ≠ b' → Linked ((MNet.start : MNet Bytes B Topic H).run l1) b b')
    (hi : ((MNet.start : MNet Bytes B Topic H).run l1).fullU = [])
    (ht : ∀ u, InTurn u ((MNet.start : MNet Bytes B Topic H).run l1) l2) (hlen : 2 * l1.length < 2 ^ 64) :
    Stable ((MNet.start : MNet Bytes B Topic H).run (l1 ++ l2)) [] := by
  rw [Mesh.run_append]
  have hunk := unknown_run l1 _ (unknown_start (U := Bytes) (B := B) (T := Topic) (H := H) []) (hb [])
  have hirr := (MNet.inv_run (MNet.inv_start (U := Bytes) (B := B) (T := Topic) (H := H)) l1 (by omega)).irrefl
  have h0 : Stable ((MNet.start : MNet Bytes B Topic H).run l1) [] := by
    refine ⟨hunk.ident, ?_, hi, fun τ hτ h => absurd (hunk.task τ hτ) h⟩
    intro x y
    constructor
    · rintro h rfl; exact h (hirr x)
    · intro hne; exact (MNet.knows_iff _ _ _).1 (hlk x y hne).1
  have hrun : ∀ (ls : List (MLabel Bytes B Topic H)) (n : MNet Bytes B Topic H), Stable n [] →
      InTurn [] n ls → Stable (n.run ls) [] := by
    intro ls
    induction ls with
    | nil => intro n h _; exact h
    | cons l ls ih => intro n h ht; exact ih _ (stable_step h l ⟨ht.1, trivial⟩) ht.2
  exact hrun l2 _ h0 (ht [])

/-- The history of users, come to rest; of topics only that brokers forward to each other what their users want. -/
structure UsersRested (valid : Topic → Bool) (l1 l2 : List (MLabel Bytes B Topic H)) : Prop where
  before : ∀ u, ∀ l ∈ l1, ¬ Connects u l
  linked : ∀ b b', b ≠ b' → Linked ((MNet.start : MNet Bytes B Topic H).run l1) b b'
  initial : ((MNet.start : MNet Bytes B Topic H).run l1).fullU = []
  turn : ∀ u, InTurn u ((MNet.start : MNet Bytes B Topic H).run l1) l2
  short : 2 * (l1 ++ l2).length < 2 ^ 64
  orderly : AllOrderly valid (MNet.start : MNet Bytes B Topic H) (l1 ++ l2)
  way : ∀ u, NothingUnderWay u ((MNet.start : MNet Bytes B Topic H).run (l1 ++ l2))
  announced : ∀ u b, ¬ Unannounced u ((MNet.start : MNet Bytes B Topic H).run (l1 ++ l2)) b
  interest : ∀ b b', b ≠ b' → ∀ t, TopicSync.Subscribed (((MNet.start : MNet Bytes B Topic H).run (l1 ++ l2)).st b) t →
    b ∈ ((((MNet.start : MNet Bytes B Topic H).run (l1 ++ l2)).st b').getInterestedByTopic [t] false).1

theorem UsersRested.in_sync {valid : Topic → Bool} {l1 l2 : List (MLabel Bytes B Topic H)} (h : UsersRested valid l1 l2) :
    Network.Mesh (fun _ => True) ((MNet.start : MNet Bytes B Topic H).run (l1 ++ l2)).st
      (fun u => whereabouts u l2 none) ∧
    UsersInSync (fun _ => True) ((MNet.start : MNet Bytes B Topic H).run (l1 ++ l2)).st
      (fun u => whereabouts u l2 none) ∧
    TopicsInSync valid (fun _ => True) ((MNet.start : MNet Bytes B Topic H).run (l1 ++ l2)).st
      (fun u => whereabouts u l2 none) (Wants l1 l2) := by
  have hlen := h.short
  rw [List.length_append] at hlen
  have hloc := fun u b => C74_in_turn_partial u l1 l2 (h.before u) h.linked h.initial (h.turn u) (by omega)
    (by omega) (h.way u) (h.announced u) b
  have hinv := MNet.inv_run (MNet.inv_start (U := Bytes) (B := B) (T := Topic) (H := H)) (l1 ++ l2)
    (by rw [List.length_append]; omega)
  have hst := stable_rested h.before h.linked h.initial h.turn (by omega)
  have hknows : ∀ x y, x ≠ y → ((MNet.start : MNet Bytes B Topic H).run (l1 ++ l2)).knows x y = true :=
    fun x y hne => (MNet.knows_iff _ _ _).2 ((hst.links x y).2 hne)
  have hgood := good_run valid (l1 ++ l2) _ (good_start valid) h.orderly
  have hask := C72_subscribed_iff_asked (U := Bytes) (T := Topic) (H := H) (B := B) (l1 ++ l2)
  have hex := h.interest
  generalize hnet : (MNet.start : MNet Bytes B Topic H).run (l1 ++ l2) = net at *
  have hat : ∀ u b, ((net.st b).getUserConnection u).isSome ↔ whereabouts u l2 none = some b :=
    fun u b => (hloc u b).2
  have hown : ∀ b u t, whereabouts u l2 none = some b → ((net.st b).bcUsers.Bwd u t ↔ Wants l1 l2 u t) := by
    intro b u t hb
    have h1 := hask b u ((hat u b).2 hb) t
    rw [((mem_interested (net.st b) [t] true).1 u)] at h1
    simp only [List.mem_singleton, exists_eq_left] at h1
    refine h1.trans ⟨fun ht => ⟨b, hb, ht⟩, ?_⟩
    rintro ⟨b', hb', ht⟩
    rw [hb] at hb'; cases hb'; exact ht
  refine ⟨⟨fun b _ => hinv.ident b, fun x y _ _ hne => hknows x y hne, ?_, fun _ _ _ => trivial,
    fun b u _ => hat u b⟩, fun b u _ => (hloc u b).1, ?_, ?_, ?_⟩
  · intro x y _ hk
    exact ⟨trivial, fun e => (hst.links x y).1 ((MNet.knows_iff _ _ _).1 hk) e.symm⟩
  · intro b u t _ hb
    rw [RMap.mem_getKeysByValue]
    exact hown b u t hb
  · intro b b' t _ _ hne
    have h3 := hex b' b (fun e => hne e.symm) t
    rw [(mem_interested _ [t] false).2.1 b'] at h3
    simp only [true_and, List.mem_singleton, exists_eq_left] at h3
    rw [RMap.mem_getKeysByValue]
    rintro ⟨u, hb, hw⟩
    exact h3 ((TopicSync.subscribed_iff _ _).2 ⟨u, (hown b' u t hb).2 hw⟩)
  · rintro u t ⟨b, hb, ht⟩
    exact (hgood b).2 u t ((hown b u t hb).2 ⟨b, hb, ht⟩)

theorem Rested.users {valid : Topic → Bool} {l1 l2 : List (MLabel Bytes B Topic H)} (h : Rested valid l1 l2) :
    UsersRested valid l1 l2 where
  before := h.before
  linked := h.linked
  initial := h.initial
  turn := h.turn
  short := h.short
  orderly := h.orderly
  way := h.way
  announced := h.announced
  interest := by
    intro b b' hne t
    have hlen := h.short
    rw [List.length_append] at hlen
    have hex := C71_interest_exact (U := Bytes) (T := Topic) (H := H) (B := B) (l1 ++ l2) h.short
    have hst := stable_rested h.before h.linked h.initial h.turn (by omega)
    refine (hex b b' ⟨?_, ?_⟩ (h.topics b b' hne) t).2 <;> refine (MNet.knows_iff _ _ _).2 ((hst.links _ _).2 ?_)
    · exact hne
    · exact fun e => hne e.symm

/-- The tables are those of a mesh in sync: C74 for the users, C71 for the topics. -/
theorem in_sync {valid : Topic → Bool} {l1 l2 : List (MLabel Bytes B Topic H)} (h : Rested valid l1 l2) :
    Network.Mesh (fun _ => True) ((MNet.start : MNet Bytes B Topic H).run (l1 ++ l2)).st
      (fun u => whereabouts u l2 none) ∧
    UsersInSync (fun _ => True) ((MNet.start : MNet Bytes B Topic H).run (l1 ++ l2)).st
      (fun u => whereabouts u l2 none) ∧
    TopicsInSync valid (fun _ => True) ((MNet.start : MNet Bytes B Topic H).run (l1 ++ l2)).st
      (fun u => whereabouts u l2 none) (Wants l1 l2) := h.users.in_sync

theorem reads_of_sync (cfg : Cfg B σ) (hT : Transparent cfg) (hw : WireFormat cfg) (tab : B → Table B H)
    (home : Bytes → Option B) (wants : Bytes → Topic → Prop) (h1 : Network.Mesh (fun _ => True) tab home)
    (h2 : UsersInSync (fun _ => True) tab home) (h3 : TopicsInSync cfg.valid (fun _ => True) tab home wants)
    (hook : B → Dest B → σ) (ls : List (Label B H)) (hl : ∀ l ∈ ls, Static cfg l) (pol : Codec.Policy) (msg : Nat → Msg)
    (hpub : ∀ b a id raw, Label.publish b a id raw ∈ ls → home a = some b ∧
      raw = Codec.serialize pol (msg id) ∧ raw.length ≤ Frame.maxMessageSize)
    (a r : Bytes) (hcon : home r ≠ none) :
    let n := (Net.start tab hook).run cfg ls
    readFrom n a r <+: (wrote cfg.valid wants msg a r ls).map .ok ∧
    (Quiescent n → readFrom n a r = (wrote cfg.valid wants msg a r ls).map .ok) := by
  obtain ⟨bR, hbR⟩ := Option.ne_none_iff_exists'.1 hcon
  refine C81_order cfg hT hw (fun _ => True) _ _ _ h1 h3 h2 hook ls hl a r
    ((home a).getD bR) bR hbR pol msg ?_
  intro b a' id raw hm
  obtain ⟨p1, p2, p3⟩ := hpub b a' id raw hm
  refine ⟨trivial, ?_, p2, p3⟩
  rintro rfl
  rw [p1]; rfl

/-- **C97.** Brokers are started; links come and go; users connect, move and leave, the changes of each in turn;
they change their topics; syncs run; all comes to rest. Then connected users publish, each at the broker where they
are, messages in the real wire format, none too long to be received. The messages a connected user `r` reads from a
user `a` are at every moment a prefix of those `a` wrote directly to `r` or on a topic `r` has asked for, and when
nothing is in flight all of them: the same messages, in the order written, none lost, none twice. -/
theorem C97_reads_what_was_written (cfg : Cfg B σ) (hT : Transparent cfg) (hw : WireFormat cfg)
    (l1 l2 : List (MLabel Bytes B Topic H)) (hr : Rested cfg.valid l1 l2) (hook : B → Dest B → σ)
    (ls : List (Label B H)) (hl : ∀ l ∈ ls, Static cfg l) (pol : Codec.Policy) (msg : Nat → Msg)
    (hpub : ∀ b a id raw, Label.publish b a id raw ∈ ls → whereabouts a l2 none = some b ∧
      raw = Codec.serialize pol (msg id) ∧ raw.length ≤ Frame.maxMessageSize)
    (a r : Bytes) (hcon : whereabouts r l2 none ≠ none) :
    let n := (Net.start ((MNet.start : MNet Bytes B Topic H).run (l1 ++ l2)).st hook).run cfg ls
    readFrom n a r <+: (wrote cfg.valid (Wants l1 l2) msg a r ls).map .ok ∧
    (Quiescent n → readFrom n a r = (wrote cfg.valid (Wants l1 l2) msg a r ls).map .ok) := by
  obtain ⟨h1, h2, h3⟩ := in_sync hr
  exact reads_of_sync cfg hT hw _ _ _ h1 h2 h3 hook ls hl pol msg hpub a r hcon

/-! ### Who is not there reads nothing -/

theorem inbox_connected (cfg : Cfg B σ) (tab : B → Table B H) (hook : B → Dest B → σ)
    (ls : List (Label B H)) (hl : ∀ l ∈ ls, Static cfg l) :
    ∀ e ∈ ((Net.start tab hook).run cfg ls).inbox, ∃ b, ((tab b).getUserConnection e.1).isSome := by
  have hall : ∀ (ls : List (Label B H)) (n : Net B H σ), (∀ l ∈ ls, Static cfg l) → n.tab = tab →
      (∀ e ∈ n.inbox, ∃ b, ((tab b).getUserConnection e.1).isSome) →
      ∀ e ∈ (n.run cfg ls).inbox, ∃ b, ((tab b).getUserConnection e.1).isSome := by
    intro ls
    induction ls with
    | nil => intro n _ _ h; exact h
    | cons l ls ih =>
      intro n hl ht h
      have hl0 := hl l (by simp)
      refine ih (n.step cfg l) (fun l hm => hl l (by simp [hm])) ?_ ?_
      · cases l with
        | publish => exact ht
        | originate => exact hl0.elim
        | setTable => exact hl0.elim
        | take b frm =>
          simp only [Net.step]
          split
          · exact ht
          · split <;> exact ht
        | send b frm ok =>
          simp only [Net.step]
          split
          · exact ht
          · split
            · split <;> exact ht
            · exact ht
      · cases l with
        | publish => exact h
        | originate => exact hl0.elim
        | setTable => exact hl0.elim
        | take b frm =>
          simp only [Net.step]
          split
          · exact h
          · split <;> exact h
        | send b frm ok =>
          simp only [Net.step]
          split
          · exact h
          · rename_i t _
            split
            · rename_i hc
              split
              · rename_i u hu
                intro e he
                rcases List.mem_append.1 he with he | he
                · exact h e he
                · rw [List.mem_singleton] at he; subst he
                  rw [hu, ht, Bool.and_eq_true] at hc
                  exact ⟨b, hc.1⟩
              · exact h
            · exact h
  exact hall ls _ hl rfl (by intro e he; simp [Net.start] at he)

theorem absent_of_sync (cfg : Cfg B σ) (tab : B → Table B H) (home : Bytes → Option B)
    (h1 : Network.Mesh (fun _ => True) tab home) (hook : B → Dest B → σ)
    (ls : List (Label B H)) (hl : ∀ l ∈ ls, Static cfg l) (a r : Bytes) (hno : home r = none) :
    readFrom ((Net.start tab hook).run cfg ls) a r = [] := by
  have h := inbox_connected cfg tab hook ls hl
  unfold readFrom
  rw [List.map_eq_nil_iff, List.filter_eq_nil_iff]
  intro e he hc
  obtain ⟨b, hb⟩ := h e he
  have hc : e.1 = r ∧ e.2.src = a := by simpa using hc
  rw [hc.1] at hb
  have := (h1.placed b r trivial).1 hb
  simp [hno] at this

/-- **C97 (nobody else).** A user who is not connected reads nothing. -/
theorem C97_absent_reads_nothing (cfg : Cfg B σ)
    (l1 l2 : List (MLabel Bytes B Topic H)) (hr : Rested cfg.valid l1 l2) (hook : B → Dest B → σ)
    (ls : List (Label B H)) (hl : ∀ l ∈ ls, Static cfg l) (a r : Bytes) (hno : whereabouts r l2 none = none) :
    readFrom ((Net.start ((MNet.start : MNet Bytes B Topic H).run (l1 ++ l2)).st hook).run cfg ls) a r = [] := by
  exact absent_of_sync cfg _ _ (in_sync hr).1 hook ls hl a r hno

/-! ### Everything can be delivered -/

theorem run_append' (cfg : Cfg B σ) (n : Net B H σ) (l1 l2 : List (Label B H)) :
    n.run cfg (l1 ++ l2) = (n.run cfg l1).run cfg l2 := List.foldl_append

/-- Not a new message, and nothing fails. -/
def Carries : Label B H → Prop
  | .take _ _ => True
  | .send _ _ ok => ok = true
  | _ => False

theorem carry (cfg : Cfg B σ) (w : Nat × Nat × Nat × Nat) :
    ∀ n : Net B H σ, HopInv n → work n = w →
      ∃ ls : List (Label B H), (∀ l ∈ ls, Carries l) ∧ Quiescent (n.run cfg ls) := by
  induction w using wf_less.induction with
  | _ w ih =>
    intro n hn hw
    have hstep : ∀ l, Carries l → Enabled n l →
        ∃ ls : List (Label B H), (∀ l ∈ ls, Carries l) ∧ Quiescent (n.run cfg ls) := by
      intro l hc he
      have hdec := work_decreases cfg n hn l he
      rw [hw] at hdec
      obtain ⟨ls, h1, h2⟩ := ih _ hdec _ (hopInv_step cfg n hn l) rfl
      refine ⟨l :: ls, fun x hx => ?_, h2⟩
      rcases List.mem_cons.1 hx with rfl | hx
      · exact hc
      · exact h1 x hx
    cases hp : n.pend with
    | cons t l =>
      refine hstep (.send t.here t.frm true) rfl ?_
      simp [Enabled, hp, Todo.for']
    | nil =>
      cases hi : n.wire with
      | cons i l =>
        refine hstep (.take i.here i.frm) trivial ?_
        simp [Enabled, hp, hi, Item.for']
      | nil => exact ⟨[], by simp, hi, hp⟩

theorem end_of_sync (cfg : Cfg B σ) (hT : Transparent cfg) (hw : WireFormat cfg) (tab : B → Table B H)
    (home : Bytes → Option B) (wants : Bytes → Topic → Prop) (g1 : Network.Mesh (fun _ => True) tab home)
    (g2 : UsersInSync (fun _ => True) tab home) (g3 : TopicsInSync cfg.valid (fun _ => True) tab home wants)
    (hook : B → Dest B → σ) (ls : List (Label B H)) (hl : ∀ l ∈ ls, Static cfg l) (pol : Codec.Policy) (msg : Nat → Msg)
    (hpub : ∀ b a id raw, Label.publish b a id raw ∈ ls → home a = some b ∧
      raw = Codec.serialize pol (msg id) ∧ raw.length ≤ Frame.maxMessageSize) :
    ∃ ls' : List (Label B H), (∀ l ∈ ls', Carries l) ∧ ∀ a r, home r ≠ none →
      readFrom ((Net.start tab hook).run cfg (ls ++ ls')) a r = (wrote cfg.valid wants msg a r ls).map .ok := by
  obtain ⟨ls', h1, h2⟩ := carry cfg _ _ (hopInv_run cfg _ (hopInv_start tab hook) ls) rfl
  refine ⟨ls', h1, fun a r hcon => ?_⟩
  have hnew : ∀ b a id raw, Label.publish b a id raw ∉ ls' := fun b a id raw hm => (h1 _ hm).elim
  have h := (reads_of_sync cfg hT hw tab home wants g1 g2 g3 hook (ls ++ ls') (by
      intro l hm
      rcases List.mem_append.1 hm with hm | hm
      · exact hl l hm
      · have := h1 l hm
        cases l with
        | publish => exact this.elim
        | originate => exact this.elim
        | setTable => exact this.elim
        | take => trivial
        | send => exact this) pol msg (by
      intro b a id raw hm
      rcases List.mem_append.1 hm with hm | hm
      · exact hpub b a id raw hm
      · exact (hnew _ _ _ _ hm).elim) a r hcon).2 (by rw [run_append']; exact h2)
  rw [h]
  congr 1
  unfold wrote
  rw [List.flatMap_append]
  refine (congrArg _ (List.flatMap_eq_nil_iff.2 fun l hm => ?_)).trans (List.append_nil _)
  have := h1 l hm
  cases l <;> first | rfl | exact this.elim

/-- **C97 (in the end).** Whatever has been published and however far it has come, it can be carried to its end, by
nothing but receive loops and senders at work, and then everything written has been read. -/
theorem C97_in_the_end (cfg : Cfg B σ) (hT : Transparent cfg) (hw : WireFormat cfg)
    (l1 l2 : List (MLabel Bytes B Topic H)) (hr : Rested cfg.valid l1 l2) (hook : B → Dest B → σ)
    (ls : List (Label B H)) (hl : ∀ l ∈ ls, Static cfg l) (pol : Codec.Policy) (msg : Nat → Msg)
    (hpub : ∀ b a id raw, Label.publish b a id raw ∈ ls → whereabouts a l2 none = some b ∧
      raw = Codec.serialize pol (msg id) ∧ raw.length ≤ Frame.maxMessageSize) :
    ∃ ls' : List (Label B H), (∀ l ∈ ls', Carries l) ∧ ∀ a r, whereabouts r l2 none ≠ none →
      readFrom ((Net.start ((MNet.start : MNet Bytes B Topic H).run (l1 ++ l2)).st hook).run cfg (ls ++ ls')) a r =
        (wrote cfg.valid (Wants l1 l2) msg a r ls).map .ok := by
  obtain ⟨h1, h2, h3⟩ := in_sync hr
  exact end_of_sync cfg hT hw _ _ _ h1 h2 h3 hook ls hl pol msg hpub

/-! ### A case -/

def demoLinks : List (MLabel Bytes (Fin 3) Topic Nat) :=
  toyLinks ++ [.fullTopic 0 1, .fullTopic 0 1, .fullTopic 1 0, .fullTopic 1 0, .fullTopic 1 2, .fullTopic 2 1,
    .fullTopic 0 2, .fullTopic 2 0]

/-- User `[7]` connects to broker 0 with topic 1, moves to broker 2 with topic 2; user `[8]`, at broker 1, subscribes
to topic 2 later. -/
def demoUsers : List (MLabel Bytes (Fin 3) Topic Nat) :=
  toyUsers ++ [.subscribe 1 [8] [2], .startTopic 0, .startTopic 1, .startTopic 2, .readDests 4, .readDests 3,
    .send 4 true, .send 3 true, .send 3 true, .deliver 2 0, .deliver 2 1, .deliver 1 0, .send 4 true,
    .deliver 2 1, .deliver 2 0, .deliver 1 2, .deliver 1 0]

def demoEnd : MNet Bytes (Fin 3) Topic Nat := (MNet.start : MNet Bytes (Fin 3) Topic Nat).run (demoLinks ++ demoUsers)

/-- The real wire format, the no-op hook, topics 0 to 3. -/
def realCfg : Cfg (Fin 3) Nat where
  decode raw := (Codec.deserialize raw).toOption
  decUserSync _ := none
  decTopicSync _ := none
  valid t := t < 4
  userHook h m := (h, m, .process)
  brokerHook h m := (h, m, .process)

def orderlyB (n : MNet Bytes (Fin 3) Topic Nat) : List (MLabel Bytes (Fin 3) Topic Nat) → Bool
  | [] => true
  | l :: ls =>
    (match l with
     | .connect _ _ _ ts => ts.all realCfg.valid
     | .subscribe b u ts => ((n.st b).getUserConnection u).isSome && ts.all realCfg.valid
     | _ => true) && orderlyB (n.step l) ls

theorem orderlyB_sound (ls : List (MLabel Bytes (Fin 3) Topic Nat)) (n : MNet Bytes (Fin 3) Topic Nat)
    (h : orderlyB n ls = true) : AllOrderly realCfg.valid n ls := by
  induction ls generalizing n with
  | nil => trivial
  | cons l ls ih =>
    simp only [orderlyB, Bool.and_eq_true] at h
    refine ⟨?_, ih _ h.2⟩
    have h1 := h.1
    cases l <;> simp_all [Orderly]

theorem demo_rest : (∀ x y : Fin 3, (demoEnd.ch x y).length = 0) ∧
    demoEnd.tasks.all (fun τ => τ.dests == some []) = true ∧ demoEnd.fullT = [] ∧
    (∀ b : Fin 3, (demoEnd.st b).direct.modified.elems = []) ∧
    ∀ b : Fin 3, (demoEnd.st b).getPartialTopicSync.2.isNone = true := by decide +kernel

theorem demo_nothing (u : Bytes) : NothingUnderWay u demoEnd := by
  refine ⟨fun x y m hm => ?_, fun τ hτ => Or.inr ?_⟩
  · rw [List.length_eq_zero_iff.1 (demo_rest.1 x y)] at hm; simp at hm
  · simpa using List.all_eq_true.1 demo_rest.2.1 τ hτ

theorem demo_announced (u : Bytes) (b : Fin 3) : ¬ Unannounced u demoEnd b := by
  unfold Unannounced
  rw [FSet.mem_def, demo_rest.2.2.2.1 b]; simp

theorem demo_settled (b b' : Fin 3) : TopicsSettled demoEnd b b' := by
  refine ⟨by simpa using demo_rest.2.2.2.2 b, by rw [demo_rest.2.2.1]; simp, fun τ hτ _ _ => ⟨[], ?_, by simp⟩,
    fun m hm => ?_⟩
  · simpa using List.all_eq_true.1 demo_rest.2.1 τ hτ
  · rw [List.length_eq_zero_iff.1 (demo_rest.1 b b')] at hm; simp at hm

/-- The history meets the hypotheses of C97. -/
theorem demo_rested : Rested realCfg.valid demoLinks demoUsers := by
  refine ⟨?_, ?_, by decide +kernel, fun u => inTurnB_sound _ _ _ (by decide +kernel), by decide,
    orderlyB_sound _ _ (by decide +kernel), demo_nothing, demo_announced, fun b b' _ => demo_settled b b'⟩
  · intro u l hl
    simp only [demoLinks, toyLinks, List.cons_append, List.nil_append, List.mem_cons, List.not_mem_nil,
      or_false] at hl
    rcases hl with rfl | rfl | rfl | rfl | rfl | rfl | rfl | rfl | rfl | rfl | rfl | rfl | rfl | rfl | rfl | rfl |
      rfl | rfl | rfl | rfl | rfl | rfl <;> simp [Connects]
  · unfold Linked; decide +kernel

def demoMsg (k : Nat) : Msg :=
  if k = 5 then .direct [7] [10, 11] else if k = 6 then .broadcast [2, 0] [12] else .broadcast [2] []

def frame (k : Nat) : Bytes := Codec.serialize Codec.heap (demoMsg k)

/-- `[8]` writes to `[7]` and on topics 2 and 0, `[7]` on topic 2. -/
def demoSchedule : List (Label (Fin 3) Nat) :=
  [.publish 1 [8] 5 (frame 5), .publish 2 [7] 9 (frame 9), .publish 1 [8] 6 (frame 6), .take 1 (.user [8]),
   .send 1 (.user [8]) true, .take 2 (.user [7]), .send 2 (.user [7]) true, .take 1 (.user [8]),
   .send 2 (.user [7]) true, .send 1 (.user [8]) true, .send 1 (.user [8]) true, .take 2 (.broker 1),
   .take 1 (.broker 2), .send 2 (.broker 1) true, .take 2 (.broker 1), .send 1 (.broker 2) true,
   .send 2 (.broker 1) true]

theorem real_decode (k : Nat) (h : k = 5 ∨ k = 6 ∨ k = 9) : realCfg.decode (frame k) = some (demoMsg k) := by
  rcases h with rfl | rfl | rfl <;> decide +kernel

/-- The publishing meets the hypotheses of C97; in the end `[7]` has read from `[8]` the direct message and then the
broadcast, and `[8]` its own broadcast and that of `[7]`; the user `[9]` is not there. -/
example : Transparent realCfg ∧ WireFormat realCfg ∧ (∀ l ∈ demoSchedule, Static realCfg l) ∧
    (∀ b a id raw, Label.publish b a id raw ∈ demoSchedule → whereabouts a demoUsers none = some b ∧
      raw = Codec.serialize Codec.heap (demoMsg id) ∧ raw.length ≤ Frame.maxMessageSize) ∧
    whereabouts [7] demoUsers none = some 2 ∧ whereabouts [9] demoUsers none = none ∧
    asked 2 [7] (demoLinks ++ demoUsers) [] = [2] ∧ asked 1 [8] (demoLinks ++ demoUsers) [] = [2] ∧
    (let n := (Net.start demoEnd.st (fun _ _ => 0)).run realCfg demoSchedule
     n.wire.length = 0 ∧ n.pend.length = 0 ∧
     readFrom n [8] [7] = [.ok (.direct [7] [10, 11]), .ok (.broadcast [2, 0] [12])] ∧
     readFrom n [8] [8] = [.ok (.broadcast [2, 0] [12])] ∧ readFrom n [7] [8] = [.ok (.broadcast [2] [])]) := by
  refine ⟨fun _ _ => ⟨rfl, rfl⟩, fun _ => rfl, ?_, ?_, by decide +kernel, by decide +kernel, by decide +kernel,
    by decide +kernel, by decide +kernel⟩
  · intro l hl
    simp only [demoSchedule, List.mem_cons, List.not_mem_nil, or_false] at hl
    rcases hl with rfl | rfl | rfl | rfl | rfl | rfl | rfl | rfl | rfl | rfl | rfl | rfl | rfl | rfl | rfl | rfl | rfl
    all_goals first | rfl | trivial | skip
    all_goals simp only [Static, Net.Good, real_decode 6 (by simp), real_decode 9 (by simp)]
    · exact ⟨2, by simp, rfl⟩
    · exact ⟨2, by simp, rfl⟩
  · intro b a id raw hm
    simp only [demoSchedule, List.mem_cons, List.not_mem_nil, or_false, reduceCtorEq, Label.publish.injEq] at hm
    rcases hm with ⟨rfl, rfl, rfl, rfl⟩ | ⟨rfl, rfl, rfl, rfl⟩ | ⟨rfl, rfl, rfl, rfl⟩ <;>
      exact ⟨by decide +kernel, rfl, by decide +kernel⟩

end Verif.Props.Whole
