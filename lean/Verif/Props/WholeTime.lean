import Verif.Props.Whole
import Verif.Props.MeshPatience

/-!
# Property C100: from the first start of the brokers to the messages users read, by the clock

C97 assumes that everything about users and topics has been announced and has arrived, and that a user changes only
when nothing about them is under way. Here none of this is assumed: users wait between two changes, and after the last
change of anybody some time goes by. The rest follows from the delays of C98 and C99.
-/

set_option linter.unusedSectionVars false

namespace Verif.Props.WholeTime
open Verif Verif.Conns Verif.TNet Verif.Props.Mesh Verif.Props.MeshUsers Verif.Props.MeshTurn Verif.Props.MeshTime
open Verif.Props.MeshPatience Verif.Props.Whole
open scoped Verif.Props.Codec

section
variable {U B T H : Type} [DecidableEq U] [DecidableEq B] [DecidableEq T] [DecidableEq H]
  [LT B] [DecidableLT B]

/-! ## Specification -/

/-- Time passes, or a sync goes on: no user connects, leaves or changes topics, no link comes or goes. -/
def Quiet : TLabel U B T H → Prop
  | .tick _ => True
  | .ev l => SyncOnly l

/-- The history of a deployment, by the clock. Links come and go until every two brokers are linked and the initial user
syncs have been started, before any user connects. Then links are steady; users connect, move and leave, any two changes
of one user more than `wait δ` apart and different users independently, and change their topics. Then nobody does
anything for more than `w`. -/
structure History (δ : Delays) (w : Nat) (valid : T → Bool) (ls1 : List (TLabel U B T H)) (s1 : TNet U B T H)
    (ls2 : List (TLabel U B T H)) (s2 : TNet U B T H) (ls3 : List (TLabel U B T H)) (s3 : TNet U B T H) : Prop where
  first : Run δ (TNet.start δ) ls1 s1
  before : ∀ u, ∀ l ∈ events ls1, ¬ Connects u l
  linked : ∀ b b', b ≠ b' → Linked s1.n b b'
  initial : s1.n.fullU = []
  patient : ∀ u, ∃ t, Patient δ (wait δ) u s1 ls2 s2 t
  orderly : AllOrderly valid (MNet.start : MNet U B T H) (events (ls1 ++ ls2))
  last : Run δ s2 ls3 s3
  quiet : ∀ l ∈ ls3, Quiet l
  long : s2.now + w < s3.now
  short : 2 * (ls1.length + ls2.length + ls3.length) + 2 < 2 ^ 64

/-! ## Proof -/

theorem events_append (l1 l2 : List (TLabel U B T H)) : events (l1 ++ l2) = events l1 ++ events l2 :=
  List.filterMap_append

theorem now_mono {δ : Delays} {s s' : TNet U B T H} {ls : List (TLabel U B T H)} (h : Run δ s ls s') : s.now ≤ s'.now := by
  induction h with
  | nil => exact Nat.le_refl _
  | snoc _ hs ih =>
    refine Nat.le_trans ih ?_
    cases hs with
    | tick d _ => exact Nat.le_add_right _ _
    | ev l => exact Nat.le_refl _

theorem patient_le {δ : Delays} {w : Nat} {u : U} {s0 s : TNet U B T H} {ls : List (TLabel U B T H)} {t : Option Nat}
    (h : Patient δ w u s0 ls s t) : ∀ t0, t = some t0 → t0 ≤ s.now := by
  induction h with
  | nil => intro t0 h; cases h
  | tick _ hs ih => intro t0 h; exact Nat.le_trans (ih t0 h) (now_mono (.snoc (.nil _) hs))
  | other _ hs _ _ ih => intro t0 h; exact Nat.le_trans (ih t0 h) (now_mono (.snoc (.nil _) hs))
  | change _ hs _ _ _ => rintro t0 ⟨⟩; exact now_mono (.snoc (.nil _) hs)

theorem steady_of_sync {l : MLabel U B T H} (h : SyncOnly l) : Steady l := by
  cases l <;> first | trivial | exact h

theorem patient_more {δ : Delays} {w : Nat} {u : U} {s0 s s' : TNet U B T H} {ls ls' : List (TLabel U B T H)}
    {t : Option Nat} (h : Patient δ w u s0 ls s t) (hr : Run δ s ls' s') (hq : ∀ l ∈ ls', Quiet l) :
    Patient δ w u s0 (ls ++ ls') s' t := by
  induction hr with
  | nil => rw [List.append_nil]; exact h
  | @snoc s1 s2 ls1 l _ hs ih =>
    rw [← List.append_assoc]
    have h1 := ih (fun l hl => hq l (by simp [hl]))
    have hl := hq l (by simp)
    cases l with
    | tick d => exact .tick h1 hs
    | ev l =>
      refine .other h1 hs (steady_of_sync hl) ?_
      intro hc; cases l <;> first | exact hc | exact hl

/-- A sync adds no subscription of a user. -/
theorem wanted_step (n : MNet U B T H) (hidx : ∀ b, (n.st b).IndexInv) (l : MLabel U B T H) (hl : SyncOnly l) (b : B) (t : T)
    (h : TopicSync.Subscribed ((n.step l).st b) t) : TopicSync.Subscribed (n.st b) t := by
  rw [TopicSync.subscribed_iff] at h ⊢
  obtain ⟨u, hu⟩ := h
  refine ⟨u, ?_⟩
  have hact : ∀ (x : B) (op : Op U B T H), Plain op → ((n.act x op).st b).bcUsers.Bwd u t → (n.st b).bcUsers.Bwd u t := by
    intro x op hp h
    simp only [MNet.act] at h
    split at h
    · rename_i e; subst e; exact bwd_plain _ (hidx _) op hp u t h
    · exact h
  cases l with
  | startTopic x => simp only [MNet.step] at hu; split at hu <;> exact hact x .partialTopicSync trivial hu
  | startUser x => simp only [MNet.step] at hu; split at hu <;> exact hact x .partialUserSync trivial hu
  | readDests i => simp only [MNet.step] at hu; split at hu <;> exact hu
  | send i ok =>
    have hok : ok = true := hl
    subst hok
    simp only [MNet.step] at hu
    split at hu
    · split at hu
      · exact hu
      · exact hu
    · exact hu
  | fullTopic x y =>
    simp only [MNet.step] at hu
    split at hu
    · split at hu <;> exact hu
    · exact hu
  | deliver x y =>
    simp only [MNet.step] at hu
    split at hu
    · split at hu
      · exact hu
      · exact hact y (.applyUserSync _) trivial hu
      · exact hact y (.applyTopicSync _ _) trivial hu
    · exact hu
  | connect => exact hl.elim
  | disconnect => exact hl.elim
  | subscribe => exact hl.elim
  | unsubscribe => exact hl.elim
  | linkUp => exact hl.elim
  | fullUser => exact hl.elim
  | drop => exact hl.elim
  | restart => exact hl.elim

section
variable {δ : Delays} {w : Nat} {valid : T → Bool} {ls1 ls2 ls3 : List (TLabel U B T H)} {s1 s2 s3 : TNet U B T H}

/-- Once users have been silent for `wait δ`, nothing about any of them is under way. -/
theorem History.silent (h : History δ w valid ls1 s1 ls2 s2 ls3 s3) {ls : List (TLabel U B T H)} {s : TNet U B T H}
    (hr : Run δ s2 ls s) (hq : ∀ l ∈ ls, Quiet l) (hlen : ls.length ≤ ls3.length) (u : U) (b : B) :
    InTurn u s1.n (events (ls2 ++ ls)) ∧ Stable s.n u ∧ (s2.now + wait δ < s.now →
      NothingUnderWay u s.n ∧ ∀ b, ¬ Unannounced u s.n b) := by
  obtain ⟨t, hp⟩ := h.patient u
  have hle := patient_le hp
  have hp' := patient_more hp hr hq
  have hsh := h.short
  obtain ⟨a1, a2, a3, a4, a5⟩ := patient_inv h.first (h.before u) h.linked h.initial hp'
    (by rw [List.length_append]; omega) b
  refine ⟨a1, a3, fun hw => waited_quiet a2 a3 a4 a5 ?_⟩
  intro t0 h0
  have := hle t0 h0
  omega

theorem History.links (h : History δ w valid ls1 s1 ls2 s2 ls3 s3) {ls : List (TLabel U B T H)} {s : TNet U B T H}
    (hr : Run δ s2 ls s) (hq : ∀ l ∈ ls, Quiet l) (hlen : ls.length ≤ ls3.length) (u : U) (b b' : B) (hne : b ≠ b') :
    Linked s.n b b' := by
  have hs := (h.silent hr hq hlen u b).2.1
  exact ⟨(MNet.knows_iff _ _ _).2 ((hs.links _ _).2 hne), (MNet.knows_iff _ _ _).2 ((hs.links _ _).2 (fun e => hne e.symm))⟩

/-- What is wanted in the end has been wanted since the last change. -/
theorem History.always (h : History δ w valid ls1 s1 ls2 s2 ls3 s3) (u : U) (b b' : B) (hne : b ≠ b') (t : T)
    {ls : List (TLabel U B T H)} {s : TNet U B T H}
    (hr : Run δ s2 ls s) (hq : ∀ l ∈ ls, Quiet l) (hlen : ls.length ≤ ls3.length) (hw : Wanted b t s) :
    While δ b b' (Wanted b t) s2 ls s := by
  obtain ⟨sb, hsb⟩ : ∃ x, x = s2 := ⟨_, rfl⟩
  rw [← hsb] at hr ⊢
  induction hr with
  | nil => exact .nil _ (by rw [hsb]; exact h.links (.nil _) (by simp) (by simp) u b b' hne) hw
  | @snoc sx sy lsx l hrx hs ih =>
    rw [List.length_append, List.length_singleton] at hlen
    have hrx' : Run δ s2 lsx sx := by rw [← hsb]; exact hrx
    have hqx : ∀ l ∈ lsx, Quiet l := fun l hl => hq l (by simp [hl])
    have hl := hq l (by simp)
    have hy := h.links (.snoc hrx' hs) hq (by rw [List.length_append, List.length_singleton]; omega) u b b' hne
    obtain ⟨tu, hp⟩ := h.patient u
    have hsh := h.short
    have hidx := (inv_timed (run_append_timed (run_append_timed h.first hp.run) hrx')
      (by simp only [List.length_append]; omega)).1
    have hwx : Wanted b t sx := by
      cases hs with
      | tick d _ => exact hw
      | ev l => exact wanted_step sx.n (fun b => (hidx.own b).index) l hl b t hw
    refine .snoc (ih hqx (by omega) hwx) hs ?_ hy hw
    intro hn
    cases l with
    | tick => exact hn
    | ev l => cases l <;> first | exact hn | exact hl

theorem History.interest (h : History δ (delay δ) valid ls1 s1 ls2 s2 ls3 s3) (u : U) (b b' : B) (hne : b ≠ b') (t : T)
    (hw : Wanted b t s3) : Forwards b' b t s3 := by
  have hsh := h.short
  obtain ⟨tu, hp⟩ := h.patient u
  refine C98_known_in_time (run_append_timed h.first hp.run) (h.always u b b' hne t h.last h.quiet (Nat.le_refl _) hw)
    ?_ h.long
  simp only [List.length_append]; omega

theorem orderly_quiet (l : List (MLabel U B T H)) (n : MNet U B T H) (h : ∀ x ∈ l, SyncOnly x) : AllOrderly valid n l := by
  induction l generalizing n with
  | nil => trivial
  | cons x l ih =>
    refine ⟨?_, ih _ (fun y hy => h y (by simp [hy]))⟩
    have := h x (by simp)
    cases x <;> first | trivial | exact this.elim

theorem orderly_append (l l' : List (MLabel U B T H)) (n : MNet U B T H) (h : AllOrderly valid n l)
    (h' : AllOrderly valid (n.run l) l') : AllOrderly valid n (l ++ l') := by
  induction l generalizing n with
  | nil => exact h'
  | cons x l ih => exact ⟨h.1, ih _ h.2 h'⟩

theorem History.net (h : History δ w valid ls1 s1 ls2 s2 ls3 s3) (u : U) :
    s1.n = (MNet.start : MNet U B T H).run (events ls1) ∧
    s3.n = (MNet.start : MNet U B T H).run (events ls1 ++ events (ls2 ++ ls3)) := by
  have hn1 : s1.n = (MNet.start : MNet U B T H).run (events ls1) := run_net h.first
  obtain ⟨t, hp⟩ := h.patient u
  refine ⟨hn1, ?_⟩
  rw [Mesh.run_append, ← hn1, ← run_net (run_append_timed hp.run h.last)]

end
end

/-! ## C100 -/

section
open Verif.Broker Verif.Net Verif.Props.Network Verif.Props.EndToEnd
variable {B H σ : Type} [DecidableEq B] [DecidableEq H] [LT B] [DecidableLT B]
variable {δ : Delays} {ls1 ls2 ls3 : List (TLabel Bytes B Topic H)} {s1 s2 s3 : TNet Bytes B Topic H}

theorem History.rested {valid : Topic → Bool} (h : History δ (delay δ) valid ls1 s1 ls2 s2 ls3 s3) (b0 : B) :
    UsersRested valid (events ls1) (events (ls2 ++ ls3)) := by
  obtain ⟨hn1, hn3⟩ := h.net []
  have hsl := fun u => h.silent h.last h.quiet (Nat.le_refl _) u b0
  have hlong : s2.now + wait δ < s3.now := by have := h.long; unfold delay at this; unfold wait; omega
  have hlk := h.linked
  have hin := h.initial
  have hsh := h.short
  have hlen1 := events_length ls1
  have hlen2 := events_length (ls2 ++ ls3)
  have hint := fun b b' hne t => h.interest [] b b' hne t
  unfold Forwards Wanted at hint
  rw [hn1] at hlk hin
  rw [hn3] at hint
  refine ⟨h.before, hlk, hin, fun u => by rw [← hn1]; exact (hsl u).1, ?_, ?_, fun u => ?_, fun u => ?_, hint⟩
  · rw [List.length_append] at *; omega
  · rw [← events_append, ← List.append_assoc, events_append]
    refine orderly_append _ _ _ h.orderly (orderly_quiet _ _ ?_)
    intro x hx
    obtain ⟨y, hy, he⟩ := List.mem_filterMap.1 hx
    have := h.quiet y hy
    cases y with
    | tick => cases he
    | ev l => cases he; exact this
  · rw [← hn3]; exact ((hsl u).2.2 hlong).1
  · rw [← hn3]; exact ((hsl u).2.2 hlong).2

theorem whereabouts_quiet (u : Bytes) (l l' : List (MLabel Bytes B Topic H)) (h : ∀ x ∈ l', SyncOnly x) :
    whereabouts u (l ++ l') none = whereabouts u l none := by
  have h' : ∀ (l' : List (MLabel Bytes B Topic H)) loc, (∀ x ∈ l', SyncOnly x) → whereabouts u l' loc = loc := by
    intro l'
    induction l' with
    | nil => intros; rfl
    | cons x l' ih =>
      intro loc h
      have hx := h x (by simp)
      have := ih loc (fun y hy => h y (by simp [hy]))
      cases x <;> first | exact hx.elim | exact this
  generalize (none : Option B) = loc
  induction l generalizing loc with
  | nil => exact h' l' loc h
  | cons x l ih => cases x <;> exact ih _

theorem asked_quiet (b : B) (u : Bytes) (l l' : List (MLabel Bytes B Topic H)) (h : ∀ x ∈ l', SyncOnly x) :
    asked b u (l ++ l') [] = asked b u l [] := by
  have h' : ∀ (l' : List (MLabel Bytes B Topic H)) ts, (∀ x ∈ l', SyncOnly x) → asked b u l' ts = ts := by
    intro l'
    induction l' with
    | nil => intros; rfl
    | cons x l' ih =>
      intro ts h
      have hx := h x (by simp)
      have := ih ts (fun y hy => h y (by simp [hy]))
      cases x <;> first | exact hx.elim | exact this
  generalize ([] : List Topic) = ts
  induction l generalizing ts with
  | nil => exact h' l' ts h
  | cons x l ih => cases x <;> exact ih _

/-- The tables are those of a mesh in sync, with every user where they last connected. -/
theorem History.in_sync {valid : Topic → Bool} (h : History δ (delay δ) valid ls1 s1 ls2 s2 ls3 s3) (b0 : B) :
    Network.Mesh (fun _ => True) s3.n.st (fun u => whereabouts u (events ls2) none) ∧
    UsersInSync (fun _ => True) s3.n.st (fun u => whereabouts u (events ls2) none) ∧
    TopicsInSync valid (fun _ => True) s3.n.st (fun u => whereabouts u (events ls2) none)
      (Wants (events ls1) (events ls2)) := by
  have hq : ∀ x ∈ events ls3, SyncOnly x := by
    intro x hx
    obtain ⟨y, hy, he⟩ := List.mem_filterMap.1 hx
    have := h.quiet y hy
    cases y with
    | tick => cases he
    | ev l => cases he; exact this
  have hs := (h.rested b0).in_sync
  rw [← (h.net []).2] at hs
  have e1 : (fun u => whereabouts u (events (ls2 ++ ls3)) none) = fun u => whereabouts u (events ls2) none := by
    funext u; rw [events_append, whereabouts_quiet u _ _ hq]
  have e2 : Wants (events ls1) (events (ls2 ++ ls3)) = Wants (events ls1) (events ls2) := by
    funext u t
    unfold Wants
    rw [events_append, whereabouts_quiet u _ _ hq]
    simp only [← List.append_assoc, asked_quiet _ u _ _ hq]
  rw [e1, e2] at hs
  exact hs

/-- **C100.** Brokers are started, links come and go, then users connect, move and leave, each waiting long enough
between two changes, and change their topics; then nobody does anything for some time. Nothing is assumed about syncs but
that they run in time. Then connected users publish, each at the broker where they are, messages in the real wire format,
none too long to be received. The messages a connected user `r` reads from a user `a` are at every moment a prefix of
those `a` wrote directly to `r` or on a topic `r` has asked for, and when nothing is in flight all of them. -/
theorem C100_reads_what_was_written (cfg : Cfg B σ) (hT : Transparent cfg) (hw : WireFormat cfg)
    (h : History δ (delay δ) cfg.valid ls1 s1 ls2 s2 ls3 s3) (hook : B → Dest B → σ)
    (ls : List (Label B H)) (hl : ∀ l ∈ ls, Static cfg l) (pol : Codec.Policy) (msg : Nat → Msg)
    (hpub : ∀ b a id raw, Label.publish b a id raw ∈ ls → whereabouts a (events ls2) none = some b ∧
      raw = Codec.serialize pol (msg id) ∧ raw.length ≤ Frame.maxMessageSize)
    (a r : Bytes) (hcon : whereabouts r (events ls2) none ≠ none) :
    let n := (Net.start s3.n.st hook).run cfg ls
    readFrom n a r <+: (wrote cfg.valid (Wants (events ls1) (events ls2)) msg a r ls).map .ok ∧
    (Quiescent n → readFrom n a r = (wrote cfg.valid (Wants (events ls1) (events ls2)) msg a r ls).map .ok) := by
  obtain ⟨b0, _⟩ := Option.ne_none_iff_exists'.1 hcon
  obtain ⟨h1, h2, h3⟩ := h.in_sync b0
  exact reads_of_sync cfg hT hw _ _ _ h1 h2 h3 hook ls hl pol msg hpub a r hcon

/-- **C100 (nobody else).** A user who is not connected reads nothing. -/
theorem C100_absent_reads_nothing (cfg : Cfg B σ) (h : History δ (delay δ) cfg.valid ls1 s1 ls2 s2 ls3 s3) (hook : B → Dest B → σ)
    (ls : List (Label B H)) (hl : ∀ l ∈ ls, Static cfg l) (a r : Bytes)
    (hno : whereabouts r (events ls2) none = none) :
    readFrom ((Net.start s3.n.st hook).run cfg ls) a r = [] := by
  by_cases hB : Nonempty B
  · obtain ⟨b0⟩ := hB
    exact absent_of_sync cfg _ _ (h.in_sync b0).1 hook ls hl a r hno
  · have hi := inbox_connected cfg s3.n.st hook ls hl
    unfold readFrom
    rw [List.map_eq_nil_iff, List.filter_eq_nil_iff]
    intro e he _
    obtain ⟨b, _⟩ := hi e he
    exact hB ⟨b⟩

/-- **C100 (in the end).** Whatever has been published and however far it has come, it can be carried to its end, by
nothing but receive loops and senders at work, and then everything written has been read. -/
theorem C100_in_the_end (cfg : Cfg B σ) (hT : Transparent cfg) (hw : WireFormat cfg)
    (h : History δ (delay δ) cfg.valid ls1 s1 ls2 s2 ls3 s3) (hook : B → Dest B → σ)
    (ls : List (Label B H)) (hl : ∀ l ∈ ls, Static cfg l) (pol : Codec.Policy) (msg : Nat → Msg)
    (hpub : ∀ b a id raw, Label.publish b a id raw ∈ ls → whereabouts a (events ls2) none = some b ∧
      raw = Codec.serialize pol (msg id) ∧ raw.length ≤ Frame.maxMessageSize) :
    ∃ ls' : List (Label B H), (∀ l ∈ ls', Carries l) ∧ ∀ a r, whereabouts r (events ls2) none ≠ none →
      readFrom ((Net.start s3.n.st hook).run cfg (ls ++ ls')) a r =
        (wrote cfg.valid (Wants (events ls1) (events ls2)) msg a r ls).map .ok := by
  by_cases hB : Nonempty B
  · obtain ⟨b0⟩ := hB
    obtain ⟨h1, h2, h3⟩ := h.in_sync b0
    exact end_of_sync cfg hT hw _ _ _ h1 h2 h3 hook ls hl pol msg hpub
  · refine ⟨[], by simp, fun a r hcon => ?_⟩
    obtain ⟨b0, _⟩ := Option.ne_none_iff_exists'.1 hcon
    exact absurd ⟨b0⟩ hB

end

section
variable {U B T H : Type} [DecidableEq U] [DecidableEq B] [DecidableEq T] [DecidableEq H]
  [LT B] [DecidableLT B]

theorem quiet_afters {δ : Delays} (L : List (MLabel U B T H)) (s0 s : TNet U B T H) (l0 : List (TLabel U B T H))
    (h0 : Run δ s0 l0 s) : Run δ s0 (l0 ++ L.map .ev) (afters δ s L) := by
  induction L generalizing s l0 with
  | nil => rw [List.map_nil, List.append_nil]; exact h0
  | cons l L ih =>
    have := ih (s.after δ l) (l0 ++ [.ev l]) (.snoc h0 (.ev _ _))
    rw [List.append_assoc] at this
    exact this

/-- **C100**, the premises can be met: with finitely many brokers, the ten seconds to the next sync can always go by
without anybody doing anything. -/
theorem C100_time_goes_on {δ : Delays} (bs : List B) (hbs : ∀ b, b ∈ bs) {s : TNet U B T H} {ls : List (TLabel U B T H)}
    (h : Run δ (TNet.start δ) ls s) (hlen : 2 * ls.length < 2 ^ 64) :
    ∃ ls' s', Run δ s ls' s' ∧ (∀ l ∈ ls', Quiet l) ∧ s'.now = s.now + δ.sync := by
  obtain ⟨L, aL, hin⟩ := sync_round bs hbs h hlen
  have hnow : (afters δ s L).now = s.now := (afters_n δ L s).2
  refine ⟨_, _, .snoc (quiet_afters L s s [] (.nil _)) (.tick _ δ.sync (by rw [hnow]; exact hin)), ?_, ?_⟩
  · intro l hl
    rcases List.mem_append.1 hl with hl | hl
    · obtain ⟨x, hx, rfl⟩ := List.mem_map.1 hl
      exact aL x hx
    · rw [List.mem_singleton] at hl; subst hl; trivial
  · show (afters δ s L).now + δ.sync = _
    rw [hnow]

end

/-! ### A case -/

section Case
open Verif.Broker Verif.Net Verif.Props.Network Verif.Props.EndToEnd

abbrev Net3 := TNet Bytes (Fin 3) Topic Nat

def pairs : List (Fin 3 × Fin 3) := [(0, 1), (0, 2), (1, 0), (1, 2), (2, 0), (2, 1)]

/-- Every broker syncs; the messages are sent and handled as late as can be. -/
def round3 : List (TLabel Bytes (Fin 3) Topic Nat) :=
  [.ev (.startUser 0), .ev (.startTopic 0), .ev (.startUser 1), .ev (.startTopic 1), .ev (.startUser 2), .ev (.startTopic 2),
   .tick 50] ++ (List.range 12).flatMap (fun i => [.ev (.readDests i), .ev (.send i true), .ev (.send i true)]) ++
  [.tick 200] ++ pairs.flatMap (fun p => List.replicate 3 (.ev (.deliver p.1 p.2)))

/-- Three brokers come up and are linked. -/
def ups : List (TLabel Bytes (Fin 3) Topic Nat) :=
  [.ev (.linkUp 0 1 0 0), .ev (.linkUp 1 2 0 0), .ev (.linkUp 2 0 0 0)] ++
  pairs.flatMap (fun p => [.ev (.fullTopic p.1 p.2), .ev (.fullUser p.1 p.2)]) ++ [.tick 1000] ++ round3

/-- User `[7]` connects to broker 0 with topic 1, user `[8]` to broker 1; `[7]` waits and moves to broker 2, with topics 2
and 3; `[8]` subscribes to topic 2, `[7]` drops topic 3. -/
def busy : List (TLabel Bytes (Fin 3) Topic Nat) :=
  [.ev (.connect 0 [7] 70 [1]), .tick 1000, .ev (.connect 1 [8] 80 []), .tick 8750] ++ round3 ++
  [.tick 251, .ev (.connect 2 [7] 71 [2, 3]), .ev (.subscribe 1 [8] [2]), .tick 100, .ev (.unsubscribe 2 [7] [3])]

/-- Nobody does anything for ten seconds and a bit. -/
def calm : List (TLabel Bytes (Fin 3) Topic Nat) := [.tick 9399] ++ round3 ++ [.tick 602]

def t1 : Net3 := (run? (TNet.start δ0) ups).getD (TNet.start δ0)
def t2 : Net3 := (run? t1 busy).getD t1
def t3 : Net3 := (run? t2 calm).getD t2

theorem run_getD {s : Net3} {ls : List (TLabel Bytes (Fin 3) Topic Nat)} (h : (run? s ls).isSome = true) :
    TNet.Run δ0 s ls ((run? s ls).getD s) := by
  obtain ⟨x, hx⟩ := Option.isSome_iff_exists.1 h
  rw [hx]; exact run?_spec (l0 := []) (.nil _) hx

theorem run_of_patient {w : Nat} {u : Bytes} {ls : List (TLabel Bytes (Fin 3) Topic Nat)} {s s' : Net3} {t t' : Option Nat}
    (h : patient? w u s t ls = some (s', t')) : run? s ls = some s' := by
  induction ls generalizing s t with
  | nil => cases h; rfl
  | cons l ls ih =>
    cases l with
    | tick d =>
      simp only [patient?, Option.bind_eq_some_iff] at h
      obtain ⟨s1, h1, h2⟩ := h
      simp only [run?, h1, Option.bind_some]
      exact ih h2
    | ev l =>
      simp only [patient?] at h
      simp only [run?, MeshTime.next, Option.bind_some]
      split at h
      · split at h
        · exact ih h
        · cases h
      · split at h
        · exact ih h
        · cases h

/-- The user who connects or leaves. -/
def who : TLabel Bytes (Fin 3) Topic Nat → Option Bytes
  | .ev (.connect _ u _ _) | .ev (.disconnect _ u) => some u
  | _ => none

def evSteady : TLabel Bytes (Fin 3) Topic Nat → Bool
  | .tick _ => true
  | .ev l => steadyB l

theorem patient_idle {w : Nat} {u : Bytes} {s s' : Net3} {ls : List (TLabel Bytes (Fin 3) Topic Nat)}
    (h : TNet.Run δ0 s ls s') (h1 : ls.all evSteady = true) (h2 : ∀ l ∈ ls, who l ≠ some u) :
    Patient δ0 w u s ls s' none := by
  induction h with
  | nil => exact .nil
  | @snoc _ _ ls l _ hs ih =>
    rw [List.all_append, Bool.and_eq_true] at h1
    have ih' := ih h1.1 (fun l hl => h2 l (by simp [hl]))
    have hl := h2 l (by simp)
    have hst : evSteady l = true := by simpa using h1.2
    cases l with
    | tick => exact .tick ih' hs
    | ev l =>
      refine .other ih' hs (steadyB_spec l hst) ?_
      intro hc
      cases l <;> first | exact hc | skip
      · exact hl (congrArg some hc)
      · exact hl (congrArg some hc.1)

/-- Users wait, computed for those who do something. -/
theorem patient_all {w : Nat} {s s' : Net3} {ls : List (TLabel Bytes (Fin 3) Topic Nat)} {us : List Bytes}
    (hr : run? s ls = some s') (h1 : ls.all evSteady = true)
    (h2 : ls.all (fun l => (who l).all (fun u => decide (u ∈ us))) = true)
    (h3 : us.all (fun u => (patient? w u s none ls).isSome) = true) (u : Bytes) : ∃ t, Patient δ0 w u s ls s' t := by
  by_cases hu : u ∈ us
  · obtain ⟨⟨x, t⟩, hx⟩ := Option.isSome_iff_exists.1 (List.all_eq_true.1 h3 u hu)
    have := run_of_patient hx
    rw [hr] at this; cases this
    exact ⟨t, patient?_spec (l0 := []) .nil hx⟩
  · refine ⟨none, patient_idle (run?_spec (l0 := []) (.nil _) hr) h1 ?_⟩
    intro l hl hw
    have := List.all_eq_true.1 h2 l hl
    rw [hw] at this
    exact hu (by simpa using this)

def connectsB : MLabel Bytes (Fin 3) Topic Nat → Bool
  | .connect .. => true
  | _ => false

theorem getD_of_isSome {α : Type} {o : Option α} {d : α} (h : o.isSome = true) : o = some (o.getD d) := by
  cases o with
  | none => cases h
  | some x => rfl

def quietB : TLabel Bytes (Fin 3) Topic Nat → Bool
  | .tick _ => true
  | .ev (.startTopic _) | .ev (.startUser _) | .ev (.readDests _) | .ev (.fullTopic _ _) | .ev (.deliver _ _) => true
  | .ev (.send _ ok) => ok
  | _ => false

theorem quietB_spec (l : TLabel Bytes (Fin 3) Topic Nat) (h : quietB l = true) : Quiet l := by
  cases l with
  | tick => trivial
  | ev l => cases l <;> first | trivial | exact h | exact absurd h (by simp [quietB])

/-- A history, computed. -/
theorem history_of {w : Nat} {l1 l2 l3 : List (TLabel Bytes (Fin 3) Topic Nat)} {x1 x2 x3 : Net3} {us : List Bytes}
    (r1 : run? (TNet.start δ0) l1 = some x1) (r2 : run? x1 l2 = some x2) (r3 : run? x2 l3 = some x3)
    (hb : (events l1).all (fun l => !connectsB l) = true) (hlk : ∀ b b' : Fin 3, b ≠ b' → Linked x1.n b b')
    (hin : x1.n.fullU = []) (h1 : l2.all evSteady = true)
    (h2 : l2.all (fun l => (who l).all (fun u => decide (u ∈ us))) = true)
    (h3 : us.all (fun u => (patient? (wait δ0) u x1 none l2).isSome) = true)
    (ho : orderlyB MNet.start (events (l1 ++ l2)) = true) (hq : l3.all quietB = true) (hl : x2.now + w < x3.now)
    (hs : 2 * (l1.length + l2.length + l3.length) + 2 < 2 ^ 64) :
    History δ0 w realCfg.valid l1 x1 l2 x2 l3 x3 where
  first := run?_spec (l0 := []) (.nil _) r1
  before := by
    intro u l hm hc
    have := List.all_eq_true.1 hb l hm
    cases l <;> first | exact hc | exact absurd this (by simp [connectsB])
  linked := hlk
  initial := hin
  patient := patient_all r2 h1 h2 h3
  orderly := orderlyB_sound _ _ ho
  last := run?_spec (l0 := []) (.nil _) r3
  quiet := fun l hm => quietB_spec l (List.all_eq_true.1 hq l hm)
  long := hl
  short := hs

theorem demo_history : History δ0 (delay δ0) realCfg.valid ups t1 busy t2 calm t3 :=
  history_of (us := [[7], [8]]) (getD_of_isSome (by decide +kernel)) (getD_of_isSome (by decide +kernel))
    (getD_of_isSome (by decide +kernel)) (by decide +kernel) (by unfold Linked; decide +kernel) (by decide +kernel)
    (by decide +kernel) (by decide +kernel) (by decide +kernel) (by decide +kernel) (by decide +kernel) (by decide +kernel)
    (by decide +kernel)

/-- `[8]`, at broker 1, writes to `[7]` and on topics 2 and 0; `[7]`, at broker 2, on topic 2: C100 applies, with the
messages and the schedule of the case of C97. -/
example :
    whereabouts [7] (events busy) none = some (2 : Fin 3) ∧ whereabouts [8] (events busy) none = some (1 : Fin 3) ∧
    whereabouts [9] (events busy) none = (none : Option (Fin 3)) ∧
    asked 2 [7] (events ups ++ events busy) [] = [2] ∧ asked 1 [8] (events ups ++ events busy) [] = [2] ∧
    (let n := (Net.start t3.n.st (fun _ _ => 0)).run realCfg demoSchedule
     n.wire.length = 0 ∧ n.pend.length = 0 ∧
     readFrom n [8] [7] = [.ok (.direct [7] [10, 11]), .ok (.broadcast [2, 0] [12])] ∧
     readFrom n [8] [8] = [.ok (.broadcast [2, 0] [12])] ∧ readFrom n [7] [8] = [.ok (.broadcast [2] [])]) := by
  refine ⟨by decide +kernel, by decide +kernel, by decide +kernel, by decide +kernel, by decide +kernel, by decide +kernel⟩

/-- `[8]` subscribes to topic 2 right after a sync of their broker. -/
def busy' : List (TLabel Bytes (Fin 3) Topic Nat) :=
  [.ev (.connect 0 [7] 70 []), .ev (.connect 1 [8] 80 []), .tick 9750] ++ round3 ++ [.tick 9750,
   .ev (.startUser 0), .ev (.startTopic 0), .ev (.startUser 1), .ev (.startTopic 1), .ev (.startUser 2), .ev (.startTopic 2),
   .ev (.subscribe 1 [8] [2])]

/-- The next sync, as late as can be. -/
def calm' : List (TLabel Bytes (Fin 3) Topic Nat) := .tick 10000 :: round3.take 44

def u2 : Net3 := (run? t1 busy').getD t1
def u3 : Net3 := (run? u2 calm').getD u2

/-- `[7]` writes on topic 2. -/
def early : List (Label (Fin 3) Nat) :=
  [.publish 0 [7] 9 (Whole.frame 9), .take 0 (.user [7])]

/-- **C100**, the time is needed: after a millisecond less of quiet a user who has subscribed misses a message. -/
theorem C100_quiet_needed : History δ0 (delay δ0 - 1) realCfg.valid ups t1 busy' u2 calm' u3 ∧
    whereabouts [7] (events busy') none = some (0 : Fin 3) ∧ whereabouts [8] (events busy') none = some (1 : Fin 3) ∧
    Wants (events ups) (events busy') [8] 2 ∧
    (let n := (Net.start u3.n.st (fun _ _ => 0)).run realCfg early
     Quiescent n ∧ readFrom n [7] [8] = [] ∧
     wrote realCfg.valid (Wants (events ups) (events busy')) Whole.demoMsg [7] [8] early = [.broadcast [2] []]) := by
  have hw : Wants (events ups) (events busy') [8] 2 := ⟨1, by decide +kernel, by decide +kernel⟩
  refine ⟨history_of (us := [[7], [8]]) (getD_of_isSome (by decide +kernel)) (getD_of_isSome (by decide +kernel))
    (getD_of_isSome (by decide +kernel)) (by decide +kernel) (by unfold Linked; decide +kernel) (by decide +kernel)
    (by decide +kernel) (by decide +kernel) (by decide +kernel) (by decide +kernel) (by decide +kernel) (by decide +kernel)
    (by decide +kernel), by decide +kernel, by decide +kernel, hw, ⟨?_, ?_⟩, by decide +kernel, ?_⟩
  · exact List.length_eq_zero_iff.1 (by decide +kernel)
  · exact List.length_eq_zero_iff.1 (by decide +kernel)
  · simp only [wrote, early, List.flatMap_cons, List.flatMap_nil, List.append_nil]
    rw [if_pos]
    · rfl
    · refine ⟨rfl, ?_⟩
      exact ⟨2, by simp, rfl, hw⟩

end Case
end Verif.Props.WholeTime
