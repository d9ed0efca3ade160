import Verif.Props.MeshUsers
import Verif.Props.UserSync

/-!
# Property C74, partial, and C75: users who move in turn, in a mesh with concurrent syncs
-/

set_option linter.unusedSectionVars false

namespace Verif.Props.MeshTurn
open Verif Verif.Conns Verif.MNet Verif.Props.Mesh Verif.Props.MeshUsers

variable {U B T H : Type} [DecidableEq U] [DecidableEq B] [DecidableEq T] [DecidableEq H]
  [LT B] [DecidableLT B]

/-! ## Specification -/

/-- Where `u` is according to the history: the broker they last connected to, unless they disconnected
from it since. -/
def whereabouts (u : U) : List (MLabel U B T H) → Option B → Option B
  | [], loc => loc
  | .connect b u' _ _ :: ls, loc => whereabouts u ls (if u' = u then some b else loc)
  | .disconnect b u' :: ls, loc => whereabouts u ls (if u' = u ∧ loc = some b then none else loc)
  | _ :: ls, loc => whereabouts u ls loc

/-- Nothing about `u` is queued on a link or still to be sent by a sync. -/
def NothingUnderWay (u : U) (n : MNet U B T H) : Prop :=
  (∀ b b', ∀ m ∈ n.ch b b', entryOf u m = none) ∧
  ∀ τ ∈ n.tasks, entryOf u τ.msg = none ∨ τ.dests = some []

/-- Broker `b` has a change of `u` that it has not announced. -/
def Unannounced (u : U) (n : MNet U B T H) (b : B) : Prop := u ∈ (n.st b).direct.modified

/-- The changes of `u` come in turn, links neither come nor go and no broker is restarted: whenever `u` connects, or
disconnects from the broker that believes to have them, nothing about `u` is under way and no other
broker has an unannounced change of `u`. Other users, and the interleaving of syncs, are not
restricted. -/
def InTurn (u : U) : MNet U B T H → List (MLabel U B T H) → Prop
  | _, [] => True
  | n, l :: ls =>
    (match l with
     | .connect b u' _ _ => u' = u → NothingUnderWay u n ∧ ∀ b', b' ≠ b → ¬ Unannounced u n b'
     | .disconnect b u' => u' = u → (n.st b).getBrokerOfUser u = some b →
        NothingUnderWay u n ∧ ∀ b', b' ≠ b → ¬ Unannounced u n b'
     | .linkUp _ _ _ _ => False
     | .drop _ _ => False
     | .restart _ => False
     | .send _ ok => ok = true
     | _ => True) ∧ InTurn u (n.step l) ls

/-! ## Before `u` is known -/

/-- No broker and no message knows `u`. -/
structure Unknown (n : MNet U B T H) (u : U) : Prop where
  ident : ∀ x, (n.st x).identity = x
  tab : ∀ x, UNet.view (n.st x) u = ⟨none, false, false⟩
  task : ∀ τ ∈ n.tasks, entryOf u τ.msg = none
  ch : ∀ x y, ∀ m ∈ n.ch x y, entryOf u m = none

theorem unknown_act {n : MNet U B T H} {u : U} (h : Unknown n u) (x : B) (op : Op U B T H)
    (hadd : ∀ h ts, op ≠ .addUser u h ts) (hmsg : ∀ m, op = .applyUserSync m → m.map.get u = none) :
    Unknown (n.act x op) u := by
  refine ⟨identity_act n x op h.ident, ?_, h.task, h.ch⟩
  intro y
  rw [st_act]; split
  · rename_i e
    subst e
    have h0 := h.tab y
    by_cases hun : UNet.Unrelated u op
    · rw [UNet.view_unrelated _ _ _ hun]; exact h0
    · cases op with
      | addUser u' hd ts =>
        have : u' = u := Classical.not_not.1 hun
        subst this; exact absurd rfl (hadd hd ts)
      | removeUser u' =>
        have : u' = u := Classical.not_not.1 hun
        subst this
        show UNet.view ((n.st y).removeUser u') u' = _
        rw [UNet.view_removeUser, h0]; rfl
      | partialUserSync =>
        show UNet.view (n.st y).getPartialUserSync.1 u = _
        rw [UNet.view_sync, h0]; rfl
      | applyUserSync m =>
        show UNet.view ((n.st y).applyUserSync m) u = _
        rw [UNet.view_apply_none _ _ _ (hmsg m rfl)]; exact h0
      | _ => exact absurd trivial hun
  · exact h.tab y

theorem unknown_setCh {n : MNet U B T H} {u : U} (h : Unknown n u) (x y : B) (q : List (SyncMsg U B T))
    (hq : ∀ m ∈ q, entryOf u m = none) : Unknown (n.setCh x y q) u := by
  refine ⟨h.ident, h.tab, h.task, ?_⟩
  intro x' y' m hm
  simp only [setCh] at hm
  split at hm
  · exact hq m hm
  · exact h.ch x' y' m hm

theorem unknown_spawn {n : MNet U B T H} {u : U} (h : Unknown n u) (τ : SyncTask U B T)
    (hq : entryOf u τ.msg = none) : Unknown (n.spawn τ) u :=
  ⟨h.ident, h.tab, by
    intro σ hσ
    rcases List.mem_append.1 hσ with h1 | h1
    · exact h.task σ h1
    · simp only [List.mem_singleton] at h1; subst h1; exact hq, h.ch⟩

theorem unknown_set {n : MNet U B T H} {u : U} (h : Unknown n u) (i : Nat)
    (here : B) (m : SyncMsg U B T) (d d' : Option (List B)) (hi : n.tasks[i]? = some ⟨here, m, d⟩) :
    Unknown { n with tasks := n.tasks.set i ⟨here, m, d'⟩ } u :=
  ⟨h.ident, h.tab, by
    intro σ hσ
    rcases List.mem_or_eq_of_mem_set hσ with h1 | rfl
    · exact h.task σ h1
    · exact h.task ⟨here, m, d⟩ (List.mem_of_getElem? hi), h.ch⟩

theorem unknown_step {n : MNet U B T H} {u : U} (h : Unknown n u) (l : MLabel U B T H)
    (hl : ¬ Connects u l) : Unknown (n.step l) u := by
  cases l with
  | connect x u' hd ts =>
    exact unknown_act h x _ (by intro h' ts' e; cases e; exact hl rfl) (by simp)
  | disconnect x u' => exact unknown_act h x (.removeUser u') (by simp) (by simp)
  | subscribe x u' ts => exact unknown_act h x (.subscribeUser u' ts) (by simp) (by simp)
  | unsubscribe x u' ts => exact unknown_act h x (.unsubscribeUser u' ts) (by simp) (by simp)
  | startTopic x =>
    have h1 := unknown_act h x .partialTopicSync (by simp) (by simp)
    simp only [MNet.step]; split
    · exact h1
    · exact unknown_spawn h1 _ rfl
  | startUser x =>
    have h1 := unknown_act h x .partialUserSync (by simp) (by simp)
    simp only [MNet.step]; split
    · exact h1
    · rename_i m hm
      apply unknown_spawn h1
      have h2 := UNet.sync_msg (n.st x) u
      rw [hm, h.tab] at h2
      exact h2
  | readDests i =>
    simp only [MNet.step]; split
    · rename_i x m hi; exact unknown_set h i x m _ _ hi
    · exact h
  | send i ok =>
    simp only [MNet.step]; split
    · rename_i x m d ds hi
      have h1 := unknown_set h i x m _ (some ds) hi
      split
      · split
        · apply unknown_setCh h1
          intro m' hm'
          rcases List.mem_append.1 hm' with h2 | h2
          · exact h.ch _ _ m' h2
          · simp only [List.mem_singleton] at h2; subst h2
            exact h.task _ (List.mem_of_getElem? hi)
        · exact unknown_setCh (unknown_act h1 x (.removeBroker d) (by simp) (by simp)) _ _ _ (by simp)
      · exact h1
    · exact h
  | linkUp x y c c' =>
    simp only [MNet.step]; split
    · exact h
    · have h1 := unknown_act h x (.addBroker y c) (by simp) (by simp)
      have h2 := unknown_act h1 y (.addBroker x c') (by simp) (by simp)
      have h3 := unknown_setCh (unknown_setCh h2 x y [] (by simp)) y x [] (by simp)
      exact ⟨h3.ident, h3.tab, h3.task, h3.ch⟩
  | fullTopic x y =>
    simp only [MNet.step]; split
    · have h1 : Unknown { n with fullT := n.fullT.erase (x, y) } u := ⟨h.ident, h.tab, h.task, h.ch⟩
      split
      · exact h1
      · exact unknown_spawn h1 _ rfl
    · exact h
  | fullUser x y =>
    simp only [MNet.step]; split
    · have h1 : Unknown { n with fullU := n.fullU.erase (x, y) } u := ⟨h.ident, h.tab, h.task, h.ch⟩
      split
      · exact h1
      · rename_i m hm
        apply unknown_spawn h1
        unfold getFullUserSync at hm
        split at hm
        · cases hm
        · cases hm; exact congrArg UNet.View.e (h.tab x)
    · exact h
  | drop x y =>
    exact unknown_setCh (unknown_act h x (.removeBroker y) (by simp) (by simp)) _ _ _ (by simp)
  | deliver x y =>
    simp only [MNet.step]; split
    · split
      · exact h
      · rename_i m rest hq
        refine unknown_setCh (unknown_act h y (.applyUserSync m) (by simp) ?_) _ _ _ ?_
        · rintro m' e; cases e
          exact h.ch x y (.user m) (by rw [hq]; simp)
        · intro m' hm'; exact h.ch x y m' (by rw [hq]; simp [hm'])
      · rename_i m rest hq
        refine unknown_setCh (unknown_act h y (.applyTopicSync x m) (by simp) (by simp)) _ _ _ ?_
        intro m' hm'; exact h.ch x y m' (by rw [hq]; simp [hm'])
    · exact h
  | restart x =>
    have hst : ∀ y, (n.step (.restart x)).st y = if y = x then Conns.new x else n.st y := fun _ => rfl
    refine ⟨?_, ?_, ?_, ?_⟩
    · intro y; rw [hst]; split
      · rename_i e; subst e; rfl
      · exact h.ident y
    · intro y; rw [hst]; split
      · simp [UNet.view, Conns.new, VMap.new]
      · exact h.tab y
    · intro τ hτ; exact h.task τ (List.mem_filter.1 hτ).1
    · intro y z m hm
      simp only [MNet.step] at hm
      split at hm
      · cases hm
      · exact h.ch y z m hm

theorem unknown_run {u : U} (ls : List (MLabel U B T H)) (n : MNet U B T H) (h : Unknown n u)
    (hl : ∀ l ∈ ls, ¬ Connects u l) : Unknown (n.run ls) u := by
  induction ls generalizing n with
  | nil => exact h
  | cons l ls ih =>
    exact ih (n.step l) (unknown_step h l (hl l (by simp))) (fun l' h' => hl l' (by simp [h']))

theorem unknown_start (u : U) : Unknown (start : MNet U B T H) u :=
  ⟨fun _ => rfl, fun x => by simp [start, UNet.view, Conns.new, VMap.new], by simp [start], by simp [start]⟩

/-! ## The mesh as a simpler one

What a broker has announced but not sent to a peer yet is counted as if it were behind what is queued on
the link, whatever the order in which the syncs will send. -/

/-- A user sync. -/
def userMsg : SyncMsg U B T → Option (DirectMap U B)
  | .user m => some m
  | .topic _ => none

/-- The sync still has to be sent to `b'`. -/
def pendingTo (b' : B) (τ : SyncTask U B T) : Bool :=
  match τ.dests with
  | none => b' ≠ τ.here
  | some ds => b' ∈ ds

def waiting (b b' : B) (ts : List (SyncTask U B T)) : List (SyncMsg U B T) :=
  (ts.filter (fun τ => decide (τ.here = b) && pendingTo b' τ)).map (·.msg)

/-- The simpler mesh. -/
def ghost (n : MNet U B T H) : UNet U B T H :=
  ⟨n.st, fun b b' => (n.ch b b' ++ waiting b b' n.tasks).filterMap userMsg⟩

theorem chU_ghost (u : U) (n : MNet U B T H) (b b' : B) :
    UserSync.chU u (ghost n) b b' =
      (n.ch b b').filterMap (entryOf u) ++ (waiting b b' n.tasks).filterMap (entryOf u) := by
  unfold UserSync.chU ghost
  simp only [List.filterMap_append, List.filterMap_filterMap]
  have : (fun x : SyncMsg U B T => (userMsg x).bind (fun m => m.map.get u)) = entryOf u := by
    funext m; cases m <;> rfl
  rw [this]

/-- Invariant while links are stable. -/
structure Stable (n : MNet U B T H) (u : U) : Prop where
  ident : ∀ b, (n.st b).identity = b
  links : ∀ b b', (n.st b).brokers.get b' ≠ none ↔ b ≠ b'
  initial : n.fullU = []
  dests : ∀ τ ∈ n.tasks, entryOf u τ.msg ≠ none → ∀ ds, τ.dests = some ds → ds.Nodup ∧ τ.here ∉ ds

/-- Calls that do not add or remove a broker. -/
def KeepsLinks (s : Conns U B T H) : Op U B T H → Prop
  | .addBroker _ _ | .removeBroker _ => False
  | .applyTopicSync b _ => s.brokers.get b ≠ none
  | _ => True

theorem known_call (s : Conns U B T H) (op : Op U B T H) (hop : KeepsLinks s op) (y : B) :
    (s.step op).brokers.get y ≠ none ↔ s.brokers.get y ≠ none := by
  cases op with
  | addUser u hd ts => simp [Conns.step, addUser]
  | removeUser u => simp [Conns.step]
  | addBroker => exact absurd hop id
  | removeBroker => exact absurd hop id
  | subscribeUser => rfl
  | unsubscribeUser => rfl
  | subscribeBroker => rfl
  | unsubscribeBroker => rfl
  | applyUserSync m => simp only [Conns.step]; rw [applyUserSync_brokers]
  | applyTopicSync b m => exact applyTopicSync_known s b m hop y
  | partialUserSync => rfl
  | partialTopicSync => simp only [Conns.step, getPartialTopicSync]; split <;> rfl

theorem stable_act {n : MNet U B T H} {u : U} (h : Stable n u) (b : B) (op : Op U B T H)
    (hop : KeepsLinks (n.st b) op) : Stable (n.act b op) u := by
  refine ⟨identity_act n b op h.ident, ?_, h.initial, h.dests⟩
  intro x y
  rw [st_act]; split
  · rename_i e; subst e; rw [known_call _ _ hop]; exact h.links x y
  · exact h.links x y

theorem stable_spawn {n : MNet U B T H} {u : U} (h : Stable n u) (τ : SyncTask U B T)
    (hq : entryOf u τ.msg ≠ none → ∀ ds, τ.dests = some ds → ds.Nodup ∧ τ.here ∉ ds) :
    Stable (n.spawn τ) u :=
  ⟨h.ident, h.links, h.initial, by
    intro σ hσ
    rcases List.mem_append.1 hσ with h1 | h1
    · exact h.dests σ h1
    · simp only [List.mem_singleton] at h1; subst h1; exact hq⟩

theorem stable_set {n : MNet U B T H} {u : U} (h : Stable n u) (i : Nat) (τ : SyncTask U B T)
    (hq : entryOf u τ.msg ≠ none → ∀ ds, τ.dests = some ds → ds.Nodup ∧ τ.here ∉ ds) :
    Stable { n with tasks := n.tasks.set i τ } u :=
  ⟨h.ident, h.links, h.initial, by
    intro σ hσ
    rcases List.mem_or_eq_of_mem_set hσ with h1 | rfl
    · exact h.dests σ h1
    · exact hq⟩

theorem stable_setCh {n : MNet U B T H} {u : U} (h : Stable n u) (x y : B) (q : List (SyncMsg U B T)) :
    Stable (n.setCh x y q) u := ⟨h.ident, h.links, h.initial, h.dests⟩

theorem mem_allBrokers (s : Conns U B T H) (b : B) : b ∈ s.allBrokers ↔ s.brokers.get b ≠ none := by
  unfold allBrokers
  rw [AMap.mem_keys]
  cases s.brokers.get b <;> simp

theorem stable_step {n : MNet U B T H} {u : U} (h : Stable n u) (l : MLabel U B T H)
    (hl : InTurn u n [l]) : Stable (n.step l) u := by
  cases l with
  | connect x u' hd ts => exact stable_act h x (.addUser u' hd ts) trivial
  | disconnect x u' => exact stable_act h x (.removeUser u') trivial
  | subscribe x u' ts => exact stable_act h x (.subscribeUser u' ts) trivial
  | unsubscribe x u' ts => exact stable_act h x (.unsubscribeUser u' ts) trivial
  | startTopic x =>
    have h1 := stable_act h x .partialTopicSync trivial
    simp only [MNet.step]; split
    · exact h1
    · exact stable_spawn h1 _ (fun h => absurd rfl h)
  | startUser x =>
    have h1 := stable_act h x .partialUserSync trivial
    simp only [MNet.step]; split
    · exact h1
    · exact stable_spawn h1 _ (by intro _ ds hds; cases hds)
  | readDests i =>
    simp only [MNet.step]; split
    · rename_i x m hi
      apply stable_set h
      intro _ ds hds
      cases hds
      refine ⟨(n.st x).brokers.nodup, ?_⟩
      rw [mem_allBrokers, h.links]; simp
    · exact h
  | send i ok =>
    have hok : ok = true := hl.1
    subst hok
    simp only [MNet.step]; split
    · rename_i x m d ds hi
      have h1 : Stable { n with tasks := n.tasks.set i ⟨x, m, some ds⟩ } u := by
        apply stable_set h
        intro hne ds' hds
        cases hds
        obtain ⟨h2, h3⟩ := h.dests _ (List.mem_of_getElem? hi) hne _ rfl
        exact ⟨(List.nodup_cons.1 h2).2, fun h4 => h3 (List.mem_cons_of_mem _ h4)⟩
      split
      · exact stable_setCh h1 _ _ _
      · exact h1
    · exact h
  | linkUp x y c c' => exact absurd hl.1 id
  | fullTopic x y =>
    simp only [MNet.step]; split
    · have h1 : Stable { n with fullT := n.fullT.erase (x, y) } u := ⟨h.ident, h.links, h.initial, h.dests⟩
      split
      · exact h1
      · exact stable_spawn h1 _ (fun h => absurd rfl h)
    · exact h
  | fullUser x y =>
    simp only [MNet.step]; rw [if_neg (by rw [h.initial]; simp)]; exact h
  | drop x y => exact absurd hl.1 id
  | restart x => exact absurd hl.1 id
  | deliver x y =>
    simp only [MNet.step]; split
    · rename_i hk
      split
      · exact h
      · rename_i m rest hq
        exact stable_setCh (stable_act h y (.applyUserSync m) trivial) _ _ _
      · rename_i m rest hq
        exact stable_setCh (stable_act h y (.applyTopicSync x m) ((knows_iff _ _ _).1 hk)) _ _ _
    · exact h

/-! ## Steps -/

theorem ghost_call (n : MNet U B T H) (b : B) (op : Op U B T H) :
    ghost (n.act b op) = (ghost n).step (.call b op) := rfl

theorem waiting_append (b b' : B) (ts ts' : List (SyncTask U B T)) :
    waiting b b' (ts ++ ts') = waiting b b' ts ++ waiting b b' ts' := by
  simp [waiting]

theorem inv_spawn_topic {n : MNet U B T H} {u : U} {loc : Option B} {k : Nat}
    (h : UserSync.Inv u (ghost n) loc k) (b : B) (m : TopicSync T) (d : Option (List B)) :
    UserSync.Inv u (ghost (n.spawn ⟨b, .topic m, d⟩)) loc k := by
  refine UserSync.inv_same_views u (ghost n) _ loc k k (Nat.le_refl _) (fun _ => rfl) (fun _ => rfl) ?_ h
  intro x y
  rw [chU_ghost, chU_ghost]
  show _ ++ (waiting x y (n.tasks ++ _)).filterMap _ = _
  rw [waiting_append, List.filterMap_append]
  have : (waiting x y [(⟨b, .topic m, d⟩ : SyncTask U B T)]).filterMap (entryOf u) = [] := by
    unfold waiting
    rw [List.filter_cons]; split <;> simp [entryOf]
  rw [this, List.append_nil]; rfl

/-- A call that does not concern user sync. -/
theorem inv_unrelated {n : MNet U B T H} {u : U} {loc : Option B} {k : Nat}
    (h : UserSync.Inv u (ghost n) loc k) (b : B) (op : Op U B T H) (hun : UNet.Unrelated u op) :
    UserSync.Inv u (ghost (n.act b op)) loc k := by
  refine UserSync.inv_same_views u (ghost n) _ loc k k (Nat.le_refl _) ?_ ?_ (fun _ _ => rfl) h
  · intro x
    show UNet.view ((n.act b op).st x) u = UNet.view (n.st x) u
    rw [st_act]; split
    · rename_i e; subst e; exact UNet.view_unrelated _ u op hun
    · rfl
  · intro x
    show ((n.act b op).st x).identity = (n.st x).identity
    rw [st_act]; split
    · rename_i e; subst e; simp
    · rfl

theorem inv_mono {N : UNet U B T H} {u : U} {loc : Option B} {k k' : Nat}
    (h : UserSync.Inv u N loc k) (hk : k ≤ k') : UserSync.Inv u N loc k' :=
  UserSync.inv_same_views u N N loc k k' hk (fun _ => rfl) (fun _ => rfl) (fun _ _ => rfl) h

/-- The same entries in another order. -/
theorem inv_perm {n n' : MNet U B T H} {u : U} {loc : Option B} {k : Nat}
    (h : UserSync.Inv u (ghost n) loc k) (hst : n'.st = n.st)
    (hp : ∀ b b', (UserSync.chU u (ghost n') b b').Perm (UserSync.chU u (ghost n) b b')) :
    UserSync.Inv u (ghost n') loc k := by
  have hshort : ∀ b b', (UserSync.chU u (ghost n) b b').length ≤ 1 := by
    intro b b'
    obtain ⟨_, base, ed, e, h | h⟩ := h
    · rw [h.chans]; simp
    · by_cases hb : b ≠ ed ∨ b' = ed
      · rw [h.chans b b' hb]; simp
      · have hb1 : b = ed := Classical.not_not.1 fun h => hb (Or.inl h)
        have hb2 : b' ≠ ed := fun h => hb (Or.inr h)
        subst hb1
        obtain ⟨_, h1 | h1⟩ := h.others b' hb2 <;> rw [h1.1] <;> simp
  refine UserSync.inv_same_views u (ghost n) _ loc k k (Nat.le_refl _) ?_ ?_ ?_ h
  · intro x; show UNet.view (n'.st x) u = UNet.view (n.st x) u; rw [hst]
  · intro x; show (n'.st x).identity = (n.st x).identity; rw [hst]
  · intro b b'
    have h1 := hp b b'
    have h2 := hshort b b'
    generalize UserSync.chU u (ghost n') b b' = l' at h1
    generalize UserSync.chU u (ghost n) b b' = l at h1 h2
    match l, h2 with
    | [], _ => exact List.perm_nil.1 h1
    | [a], _ => exact List.perm_singleton.1 h1

theorem split_at {A : Type} {l : List A} {i : Nat} {a : A} (h : l[i]? = some a) (a' : A) :
    ∃ pre post, l = pre ++ a :: post ∧ l.set i a' = pre ++ a' :: post := by
  induction l generalizing i with
  | nil => simp at h
  | cons x l ih =>
    cases i with
    | zero =>
      simp only [List.getElem?_cons_zero, Option.some.injEq] at h
      subst h
      exact ⟨[], l, rfl, rfl⟩
    | succ i =>
      rw [List.getElem?_cons_succ] at h
      obtain ⟨pre, post, h1, h2⟩ := ih h
      exact ⟨x :: pre, post, by rw [h1]; rfl, by rw [List.set_cons_succ, h2]; rfl⟩

/-- What one sync contributes. -/
def share (u : U) (b b' : B) (τ : SyncTask U B T) : List (VV B) :=
  (waiting b b' [τ]).filterMap (entryOf u)

theorem share_eq (u : U) (b b' : B) (τ : SyncTask U B T) :
    share u b b' τ = if τ.here = b ∧ pendingTo b' τ = true then (entryOf u τ.msg).toList else [] := by
  unfold share waiting
  rw [List.filter_cons]
  by_cases h : τ.here = b ∧ pendingTo b' τ = true
  · rw [if_pos h, if_pos (by simp [h.1, h.2])]
    cases he : entryOf u τ.msg <;> simp [he]
  · rw [if_neg h, if_neg]
    · rfl
    · simpa using h

theorem waiting_split (u : U) (b b' : B) (pre post : List (SyncTask U B T)) (τ : SyncTask U B T) :
    (waiting b b' (pre ++ τ :: post)).filterMap (entryOf u) =
      (waiting b b' pre).filterMap (entryOf u) ++ (share u b b' τ ++
        (waiting b b' post).filterMap (entryOf u)) := by
  rw [waiting_append, show τ :: post = [τ] ++ post from rfl, waiting_append, List.filterMap_append,
    List.filterMap_append]
  rfl

theorem inv_send {n : MNet U B T H} {u : U} {loc : Option B} {k : Nat}
    (h : UserSync.Inv u (ghost n) loc k) (hs : Stable n u) (i : Nat) :
    UserSync.Inv u (ghost (n.step (.send i true))) loc k := by
  simp only [MNet.step]
  split
  · rename_i b m d ds hi
    obtain ⟨pre, post, h1, h2⟩ := split_at hi ⟨b, m, some ds⟩
    -- the queue after the send, as far as `u` is concerned
    have key : ∀ q : B → B → List (SyncMsg U B T),
        (∀ x y, (q x y).filterMap (entryOf u) = (n.ch x y).filterMap (entryOf u) ++
          (if x = b ∧ y = d then (entryOf u m).toList else [])) →
        UserSync.Inv u (ghost { n with tasks := n.tasks.set i ⟨b, m, some ds⟩, ch := q }) loc k := by
      intro q hq
      refine inv_perm h (by rfl) ?_
      intro x y
      rw [chU_ghost, chU_ghost]
      show ((q x y).filterMap _ ++ (waiting x y (n.tasks.set i _)).filterMap _).Perm _
      rw [h2, h1, hq, waiting_split, waiting_split, share_eq, share_eq]
      simp only [pendingTo]
      by_cases hx : b = x
      · subst hx
        by_cases hy : y = d
        · subst hy
          by_cases hm : entryOf u m = none
          · simp [hm]
          · obtain ⟨hnd, _⟩ := hs.dests _ (List.mem_of_getElem? hi) hm _ rfl
            have hnot : y ∉ ds := (List.nodup_cons.1 hnd).1
            simp only [true_and, and_self, if_true, hnot, decide_false, Bool.false_eq_true, if_false,
              List.nil_append, List.mem_cons, true_or, decide_true, List.append_assoc]
            apply List.Perm.append_left
            rw [← List.append_assoc]
            refine ((List.perm_append_comm).append_right _).trans ?_
            rw [List.append_assoc]
        · have hy' : ¬ d = y := fun e => hy e.symm
          simp [hy]
      · have hx' : ¬ x = b := fun e => hx e.symm
        simp [hx, hx']
    split
    · apply key
      intro x y
      by_cases hxy : x = b ∧ y = d
      · obtain ⟨rfl, rfl⟩ := hxy
        simp only [and_self, if_true, List.filterMap_append]
        cases he : entryOf u m <;> simp [he]
      · rw [if_neg hxy, if_neg hxy, List.append_nil]
    · rename_i hk
      -- nothing was sent: then the message says nothing about `u`
      have hm : entryOf u m = none := by
        apply Classical.byContradiction
        intro hm
        obtain ⟨_, h3⟩ := hs.dests _ (List.mem_of_getElem? hi) hm _ rfl
        apply hk
        rw [knows_iff, hs.links]
        rintro rfl
        simp at h3
      apply key n.ch
      intro x y; simp [hm]
  · exact h

theorem inv_readDests {n : MNet U B T H} {u : U} {loc : Option B} {k : Nat}
    (h : UserSync.Inv u (ghost n) loc k) (hs : Stable n u) (i : Nat) :
    UserSync.Inv u (ghost (n.step (.readDests i))) loc k := by
  simp only [MNet.step]
  split
  · rename_i b m hi
    obtain ⟨pre, post, h1, h2⟩ := split_at hi ⟨b, m, some (n.st b).allBrokers⟩
    refine inv_perm h (by rfl) ?_
    intro x y
    rw [chU_ghost, chU_ghost]
    show ((n.ch x y).filterMap _ ++ (waiting x y (n.tasks.set i _)).filterMap _).Perm _
    rw [h2, h1, waiting_split, waiting_split, share_eq, share_eq]
    have : pendingTo y (⟨b, m, some (n.st b).allBrokers⟩ : SyncTask U B T) =
        pendingTo y (⟨b, m, none⟩ : SyncTask U B T) := by
      simp only [pendingTo]
      rw [decide_eq_decide, mem_allBrokers, hs.links]
      exact ⟨fun h e => h e.symm, fun h e => h e.symm⟩
    rw [this]
  · exact h

theorem inv_startUser {n : MNet U B T H} {u : U} {loc : Option B} {k : Nat}
    (h : UserSync.Inv u (ghost n) loc k) (b : B) :
    UserSync.Inv u (ghost (n.step (.startUser b))) loc (k + 1) := by
  have h1 := UserSync.inv_sync u (ghost n) loc k h b
  have hst : (n.step (.startUser b)).st = ((ghost n).step (.sync b)).st := by
    simp only [MNet.step]; split <;> rfl
  refine UserSync.inv_same_views u _ _ loc _ _ (Nat.le_refl _) ?_ ?_ ?_ h1
  · intro x; show UNet.view ((n.step (.startUser b)).st x) u = _; rw [hst]
  · intro x; show ((n.step (.startUser b)).st x).identity = _; rw [hst]
  · intro x y
    unfold UserSync.chU
    congr 1
    simp only [MNet.step, UNet.step]
    cases hm : (n.st b).getPartialUserSync.2 with
    | none =>
      have : ((ghost n).st b).getPartialUserSync.2 = none := hm
      simp only [this]; rfl
    | some m =>
      have : ((ghost n).st b).getPartialUserSync.2 = some m := hm
      simp only [this]
      show (n.ch x y ++ waiting x y (n.tasks ++ ([⟨b, .user m, none⟩] : List (SyncTask U B T)))).filterMap userMsg = _
      rw [waiting_append, ← List.append_assoc, List.filterMap_append]
      show (ghost n).ch x y ++ _ = _
      have hw : waiting x y [(⟨b, .user m, none⟩ : SyncTask U B T)] =
          if x = b ∧ y ≠ b then [.user m] else [] := by
        unfold waiting pendingTo
        rw [List.filter_cons]
        by_cases hc : x = b ∧ y ≠ b
        · rw [if_pos hc, if_pos (by simp [hc.1, hc.2])]; rfl
        · rw [if_neg hc, if_neg]
          · rfl
          · intro hh; apply hc
            simp only [Bool.and_eq_true, decide_eq_true_eq] at hh
            exact ⟨hh.1.symm, hh.2⟩
      rw [hw]
      split <;> simp [userMsg]

theorem inv_deliver {n : MNet U B T H} {u : U} {loc : Option B} {k : Nat}
    (h : UserSync.Inv u (ghost n) loc k) (b b' : B) :
    UserSync.Inv u (ghost (n.step (.deliver b b'))) loc (k + 1) := by
  simp only [MNet.step]
  split
  · cases hq : n.ch b b' with
    | nil => exact inv_mono h (by omega)
    | cons m rest =>
      cases m with
      | topic m =>
        simp only
        have h1 := inv_unrelated h b' (.applyTopicSync b m) trivial
        refine UserSync.inv_same_views u (ghost (n.act b' (.applyTopicSync b m))) _ loc k (k + 1) (by omega)
          (fun _ => rfl) (fun _ => rfl) ?_ h1
        intro x y
        rw [chU_ghost, chU_ghost]
        show ((if x = b ∧ y = b' then rest else n.ch x y).filterMap (entryOf u)) ++ _ =
          (n.ch x y).filterMap (entryOf u) ++ _
        congr 1
        split
        · rename_i e; obtain ⟨rfl, rfl⟩ := e
          rw [hq]; rfl
        · rfl
      | user m =>
        simp only
        have h1 := UserSync.inv_deliver u (ghost n) loc k h b b'
        have hg : (ghost n).ch b b' = m :: (rest ++ waiting b b' n.tasks).filterMap userMsg := by
          show (n.ch b b' ++ _).filterMap userMsg = _
          rw [hq]; rfl
        have hst : ((ghost n).step (.deliver b b')).st = (n.act b' (.applyUserSync m)).st := by
          simp only [UNet.step, hg]; rfl
        have hch : ((ghost n).step (.deliver b b')).ch =
            (ghost ((n.act b' (.applyUserSync m)).setCh b b' rest)).ch := by
          simp only [UNet.step, hg]
          funext x y
          show (if x = b ∧ y = b' then _ else (ghost n).ch x y) =
            ((if x = b ∧ y = b' then rest else n.ch x y) ++ waiting x y n.tasks).filterMap userMsg
          split
          · rename_i e; obtain ⟨rfl, rfl⟩ := e; rfl
          · rfl
        have : (ghost n).step (.deliver b b') = ghost ((n.act b' (.applyUserSync m)).setCh b b' rest) := by
          cases hgs : (ghost n).step (.deliver b b') with
          | mk st ch =>
            rw [hgs] at hst hch
            simp only at hst hch
            rw [hst, hch]; rfl
        rw [← this]; exact h1
  · exact inv_mono h (by omega)

theorem nothing_ghost {n : MNet U B T H} {u : U} (h : NothingUnderWay u n) :
    UserSync.NothingInFlight u (ghost n) := by
  intro b b' m hm
  simp only [ghost, List.mem_filterMap] at hm
  obtain ⟨m0, h1, h2⟩ := hm
  have key : entryOf u m0 = none := by
    rcases List.mem_append.1 h1 with h3 | h3
    · exact h.1 b b' m0 h3
    · unfold waiting at h3
      simp only [List.mem_map, List.mem_filter, Bool.and_eq_true, decide_eq_true_eq] at h3
      obtain ⟨τ, ⟨h4, _, h5⟩, rfl⟩ := h3
      rcases h.2 τ h4 with h6 | h6
      · exact h6
      · unfold pendingTo at h5; rw [h6] at h5; simp at h5
  cases m0 with
  | user m' => cases h2; exact key
  | topic m' => cases h2

theorem turn_step {n : MNet U B T H} {u : U} {loc : Option B} {k : Nat}
    (h : UserSync.Inv u (ghost n) loc k) (hs : Stable n u) (l : MLabel U B T H)
    (hl : InTurn u n [l]) (hk : k + 2 < 2 ^ 64) :
    UserSync.Inv u (ghost (n.step l)) (whereabouts u [l] loc) (k + 1) := by
  cases l with
  | connect b u' hd ts =>
    refine UserSync.inv_step u (ghost n) loc k h (.call b (.addUser u' hd ts)) ⟨⟨by simp, by simp, ?_⟩, trivial⟩ hk
    intro hc
    obtain ⟨h1, h2⟩ := hl.1 hc
    exact ⟨nothing_ghost h1, h2⟩
  | disconnect b u' =>
    refine UserSync.inv_step u (ghost n) loc k h (.call b (.removeUser u')) ⟨⟨by simp, by simp, ?_⟩, trivial⟩ hk
    rintro ⟨rfl, hc⟩
    obtain ⟨h1, h2⟩ := hl.1 rfl (hc.trans (by rw [show ((ghost n).st b).identity = b from hs.ident b]))
    exact ⟨nothing_ghost h1, h2⟩
  | subscribe b u' ts => exact inv_mono (inv_unrelated h b (.subscribeUser u' ts) trivial) (by omega)
  | unsubscribe b u' ts => exact inv_mono (inv_unrelated h b (.unsubscribeUser u' ts) trivial) (by omega)
  | startTopic b =>
    have h1 := inv_mono (inv_unrelated h b .partialTopicSync trivial) (Nat.le_add_right k 1)
    simp only [MNet.step]; split
    · exact h1
    · exact inv_spawn_topic h1 _ _ _
  | startUser b => exact inv_startUser h b
  | readDests i => exact inv_mono (inv_readDests h hs i) (by omega)
  | send i ok =>
    have : ok = true := hl.1
    subst this
    exact inv_mono (inv_send h hs i) (by omega)
  | linkUp => exact absurd hl.1 id
  | fullTopic b b' =>
    simp only [MNet.step]; split
    · split
      · exact inv_mono h (by omega)
      · exact inv_mono (inv_spawn_topic (n := { n with fullT := n.fullT.erase (b, b') }) h _ _ _) (by omega)
    · exact inv_mono h (by omega)
  | fullUser b b' =>
    simp only [MNet.step]; rw [if_neg (by rw [hs.initial]; simp)]
    exact inv_mono h (by omega)
  | drop => exact absurd hl.1 id
  | restart => exact absurd hl.1 id
  | deliver b b' => exact inv_deliver h b b'

theorem whereabouts_cons (u : U) (l : MLabel U B T H) (ls : List (MLabel U B T H)) (loc : Option B) :
    whereabouts u (l :: ls) loc = whereabouts u ls (whereabouts u [l] loc) := by
  cases l <;> rfl

theorem turn_run {u : U} (ls : List (MLabel U B T H)) (n : MNet U B T H) (loc : Option B) (k : Nat)
    (h : UserSync.Inv u (ghost n) loc k) (hs : Stable n u) (hl : InTurn u n ls)
    (hk : k + ls.length + 1 < 2 ^ 64) :
    UserSync.Inv u (ghost (n.run ls)) (whereabouts u ls loc) (k + ls.length) := by
  induction ls generalizing n loc k with
  | nil => exact h
  | cons l ls ih =>
    rw [List.length_cons] at hk
    have hl1 : InTurn u n [l] := ⟨hl.1, trivial⟩
    have h1 := turn_step h hs l hl1 (by omega)
    have h2 := ih _ _ _ h1 (stable_step hs l hl1) hl.2 (by omega)
    rw [whereabouts_cons, List.length_cons, show k + (ls.length + 1) = k + 1 + ls.length by omega]
    exact h2

/-- The state after a run of the two parts. -/
theorem turn_start (u : U) (l1 l2 : List (MLabel U B T H)) (hno : ∀ l ∈ l1, ¬ Connects u l)
    (hlinks : ∀ b b', b ≠ b' → Linked ((start : MNet U B T H).run l1) b b')
    (hinit : ((start : MNet U B T H).run l1).fullU = [])
    (hturn : InTurn u ((start : MNet U B T H).run l1) l2)
    (hlen1 : 2 * l1.length < 2 ^ 64) (hlen : l2.length + 1 < 2 ^ 64) (b : B) :
    UserSync.Inv u (ghost ((start : MNet U B T H).run (l1 ++ l2))) (whereabouts u l2 none) l2.length ∧
    Stable ((start : MNet U B T H).run (l1 ++ l2)) u := by
  have hunk := unknown_run l1 _ (unknown_start (U := U) (B := B) (T := T) (H := H) u) hno
  have hirr := (MNet.inv_run (inv_start (U := U) (B := B) (T := T) (H := H)) l1 (by omega)).irrefl
  rw [Mesh.run_append]
  generalize (start : MNet U B T H).run l1 = n at *
  have hst : Stable n u := by
    refine ⟨hunk.ident, ?_, hinit, ?_⟩
    · intro x y
      constructor
      · rintro h rfl; exact h (hirr x)
      · intro h; exact (knows_iff _ _ _).1 (hlinks x y h).1
    · intro τ hτ h; exact absurd (hunk.task τ hτ) h
  have h0 : UserSync.Inv u (ghost n) none 0 := by
    have hch : ∀ x y, UserSync.chU u (ghost n) x y = [] := by
      intro x y
      apply UserSync.chU_nil_of
      exact nothing_ghost ⟨hunk.ch, fun τ hτ => Or.inl (hunk.task τ hτ)⟩
    refine ⟨hunk.ident, none, b, ⟨1, none⟩, Or.inr ⟨⟨by intro e h; simp at h, rfl, by simp [UserSync.next],
      rfl, Or.inl rfl⟩, ?_, ?_, ?_, ?_, fun x y _ => hch x y⟩⟩
    · show (UNet.view (n.st b) u).e = _; rw [hunk.tab]; rfl
    · show (UNet.view (n.st b) u).m = _; rw [hunk.tab]
    · show (UNet.view (n.st b) u).c = _ ↔ _; rw [hunk.tab]; simp
    · intro x _
      show (UNet.view (n.st x) u).m = _ ∧ (_ ∨ (_ ∧ (UNet.view (n.st x) u).e = _ ∧ (UNet.view (n.st x) u).c = _))
      rw [hunk.tab, hch]
      exact ⟨rfl, Or.inr ⟨rfl, rfl, rfl⟩⟩
  have h1 := turn_run l2 n none 0 h0 hst hturn (by omega)
  rw [Nat.zero_add] at h1
  refine ⟨h1, ?_⟩
  clear h1 h0 hunk hirr hlinks hinit hlen hlen1 hno
  induction l2 generalizing n with
  | nil => exact hst
  | cons l ls ih => exact ih (n.step l) hturn.2 (stable_step hst l ⟨hturn.1, trivial⟩)

/-! ## C74, partial -/

/-- **C74, partial.** First anything happens but that `u` connects (in particular links come and go),
until every two brokers are linked and the initial user syncs have been started; then links are stable.
Syncs, also several of one broker, run concurrently and in any interleaving. If the changes of `u` come
in turn, then whenever nothing about `u` is unannounced or under way, every broker routes `u` to the
broker `u` is connected to according to the history (or to none), and exactly that broker has `u`
connected. Missing from the full claim: users whose changes overlap (C24), links that fail or come
up once `u` is known (`C74_false`, `C73_false`), syncs of one broker overtaking one another
(`C74_false_stable_links`). -/
theorem C74_in_turn_partial (u : U) (l1 l2 : List (MLabel U B T H)) (hno : ∀ l ∈ l1, ¬ Connects u l)
    (hlinks : ∀ b b', b ≠ b' → Linked ((start : MNet U B T H).run l1) b b')
    (hinit : ((start : MNet U B T H).run l1).fullU = [])
    (hturn : InTurn u ((start : MNet U B T H).run l1) l2)
    (hlen1 : 2 * l1.length < 2 ^ 64) (hlen : l2.length + 1 < 2 ^ 64)
    (hway : NothingUnderWay u ((start : MNet U B T H).run (l1 ++ l2)))
    (hann : ∀ b, ¬ Unannounced u ((start : MNet U B T H).run (l1 ++ l2)) b) (b : B) :
    (((start : MNet U B T H).run (l1 ++ l2)).st b).getBrokerOfUser u = whereabouts u l2 none ∧
    (At ((start : MNet U B T H).run (l1 ++ l2)) b u ↔ whereabouts u l2 none = some b) := by
  obtain ⟨_, base, ed, e, h | h⟩ := (turn_start u l1 l2 hno hlinks hinit hturn hlen1 hlen b).1
  · exfalso
    apply hann ed
    have := h.edM
    simpa [UNet.view, Unannounced, ghost] using this
  · by_cases hb : b = ed
    · subst hb
      refine ⟨?_, h.edC⟩
      show (UNet.view ((ghost ((start : MNet U B T H).run (l1 ++ l2))).st b) u).e.bind VV.value = _
      rw [h.edE, UserSync.value_adopted]; exact h.core.val
    · obtain ⟨_, h1 | h1⟩ := h.others b hb
      · rw [UserSync.chU_nil_of u _ (nothing_ghost hway)] at h1; simp at h1
      · refine ⟨?_, ?_⟩
        · show (UNet.view ((ghost ((start : MNet U B T H).run (l1 ++ l2))).st b) u).e.bind VV.value = _
          rw [h1.2.1, UserSync.value_adopted]; exact h.core.val
        · have hc : ((((start : MNet U B T H).run (l1 ++ l2)).st b).users.get u).isSome = false := h1.2.2
          show ((((start : MNet U B T H).run (l1 ++ l2)).st b).users.get u).isSome = true ↔ _
          rw [hc]
          constructor
          · intro h; simp at h
          · intro hloc
            rcases h.core.here with h2 | h2
            · rw [h2] at hloc; simp at hloc
            · rw [h2] at hloc; exact absurd (Option.some.inj hloc).symm hb

/-! ### A case

Three brokers. A first link fails and comes back. Then user 7 connects to broker 0, moves to broker 2, and
user 8 connects to broker 1; the syncs of broker 2 and broker 1 are sent interleaved. -/

def demoLinks : List (MLabel Nat (Fin 3) Nat Nat) :=
  [.linkUp 0 1 100 101, .connect 0 9 99 [4], .startUser 0, .drop 0 1, .drop 1 0, .disconnect 0 9,
   .linkUp 0 1 102 103, .linkUp 1 2 104 105, .linkUp 0 2 106 107,
   .fullUser 0 1, .fullUser 0 1, .fullUser 1 0, .fullUser 1 0, .fullUser 1 2, .fullUser 2 1, .fullUser 0 2,
   .fullUser 2 0]

def demoUsers : List (MLabel Nat (Fin 3) Nat Nat) :=
  [.connect 0 7 110 [1], .startUser 0, .readDests 4, .send 4 true, .send 4 true,
   .deliver 0 1, .deliver 0 2, .connect 2 7 111 [2], .connect 1 8 112 [], .startUser 2, .startTopic 2, .startUser 1,
   .readDests 7, .readDests 5, .send 7 true, .send 5 true, .send 7 true, .send 5 true,
   .deliver 2 0, .deliver 1 0, .deliver 1 2, .deliver 2 1]

section
variable {U T H : Type} [DecidableEq U] [DecidableEq T] [DecidableEq H]

def nothingB (u : U) (n : MNet U (Fin 3) T H) : Bool :=
  ((List.finRange 3).all fun x => (List.finRange 3).all fun y => (n.ch x y).all fun m => (entryOf u m).isNone) &&
  n.tasks.all fun τ => (entryOf u τ.msg).isNone || τ.dests == some []

theorem nothingB_sound (u : U) (n : MNet U (Fin 3) T H) (h : nothingB u n = true) :
    NothingUnderWay u n := by
  simp only [nothingB, Bool.and_eq_true, List.all_eq_true, List.mem_finRange, forall_const,
    Option.isNone_iff_eq_none, Bool.or_eq_true, beq_iff_eq] at h
  exact h

/-- Checks `InTurn` for all users at once, for schedules without disconnects. -/
def inTurnB : MNet U (Fin 3) T H → List (MLabel U (Fin 3) T H) → Bool
  | _, [] => true
  | n, l :: ls =>
    (match l with
     | .connect b u _ _ => nothingB u n &&
        (List.finRange 3).all fun x => x == b || u ∉ (n.st x).direct.modified
     | .disconnect _ _ | .linkUp _ _ _ _ | .drop _ _ | .restart _ => false
     | .send _ ok => ok
     | _ => true) && inTurnB (n.step l) ls

theorem inTurnB_sound (u : U) (ls : List (MLabel U (Fin 3) T H)) (n : MNet U (Fin 3) T H)
    (h : inTurnB n ls = true) : InTurn u n ls := by
  induction ls generalizing n with
  | nil => trivial
  | cons l ls ih =>
    simp only [inTurnB, Bool.and_eq_true] at h
    refine ⟨?_, ih _ h.2⟩
    have h1 := h.1
    cases l with
    | connect b u' hd ts =>
      rintro rfl
      simp only [Bool.and_eq_true, List.all_eq_true, List.mem_finRange, forall_const, Bool.or_eq_true,
        beq_iff_eq, decide_eq_true_eq] at h1
      refine ⟨nothingB_sound _ _ h1.1, fun x hx => ?_⟩
      exact (h1.2 x).resolve_left hx
    | disconnect => simp at h1
    | linkUp => simp at h1
    | drop => simp at h1
    | restart => simp at h1
    | send i ok => exact h1
    | _ => trivial
end

example : (∀ l ∈ demoLinks, ¬ Connects 7 l) ∧
    (∀ b b' : Fin 3, b ≠ b' → Linked ((start : MNet Nat (Fin 3) Nat Nat).run demoLinks) b b') ∧
    ((start : MNet Nat (Fin 3) Nat Nat).run demoLinks).fullU = [] ∧
    InTurn 7 ((start : MNet Nat (Fin 3) Nat Nat).run demoLinks) demoUsers ∧
    NothingUnderWay 7 ((start : MNet Nat (Fin 3) Nat Nat).run (demoLinks ++ demoUsers)) ∧
    (∀ b, ¬ Unannounced 7 ((start : MNet Nat (Fin 3) Nat Nat).run (demoLinks ++ demoUsers)) b) ∧
    whereabouts 7 demoUsers none = some 2 := by
  refine ⟨?_, ?_, by decide +kernel, inTurnB_sound _ _ _ (by decide +kernel),
    nothingB_sound _ _ (by decide +kernel), ?_, by decide +kernel⟩
  · intro l hl
    simp only [demoLinks, List.mem_cons, List.not_mem_nil, or_false] at hl
    rcases hl with rfl | rfl | rfl | rfl | rfl | rfl | rfl | rfl | rfl | rfl | rfl | rfl | rfl | rfl | rfl |
      rfl | rfl <;> simp [Connects]
  · unfold Linked; decide +kernel
  · unfold Unannounced; decide +kernel

/-- The old connection at broker 0 is gone. -/
example : let n := (start : MNet Nat (Fin 3) Nat Nat).run (demoLinks ++ demoUsers)
    At ((start : MNet Nat (Fin 3) Nat Nat).run (demoLinks ++ demoUsers.take 8)) 0 7 ∧ ¬ At n 0 7 ∧ At n 2 7 ∧
    ∀ b, (n.st b).getBrokerOfUser 7 = some 2 ∧ (n.st b).getBrokerOfUser 8 = some 1 := by
  unfold At; decide +kernel

/-! ## C75 -/

section
open Verif.Props.Network Verif.Broker Verif.Net
variable {B H σ : Type} [DecidableEq B] [DecidableEq H] [LT B] [DecidableLT B]

/-- **C75.** Links come and go until every two brokers are linked and the initial user syncs have been
started, before any user connects; then users connect, move and leave, the changes of each user in turn,
different users concurrently, with any interleaving of any number of syncs. Once everything about users
has been announced and has arrived, a direct message published once, at any broker, is in the end
received exactly once by its recipient, if connected, and by nobody else. -/
theorem C75_direct_after_moves (cfg : Cfg B σ) (hT : Transparent cfg)
    (l1 l2 : List (MLabel Bytes B Topic H)) (hno : ∀ u, ∀ l ∈ l1, ¬ Connects u l)
    (hlinks : ∀ b b', b ≠ b' → Linked ((MNet.start : MNet Bytes B Topic H).run l1) b b')
    (hinit : ((MNet.start : MNet Bytes B Topic H).run l1).fullU = [])
    (hturn : ∀ u, InTurn u ((MNet.start : MNet Bytes B Topic H).run l1) l2)
    (hlen1 : 2 * (l1 ++ l2).length < 2 ^ 64)
    (hway : ∀ u, NothingUnderWay u ((MNet.start : MNet Bytes B Topic H).run (l1 ++ l2)))
    (hann : ∀ u b, ¬ Unannounced u ((MNet.start : MNet Bytes B Topic H).run (l1 ++ l2)) b)
    (hook : B → Dest B → σ) (ls : List (Label B H)) (hl : ∀ l ∈ ls, Static cfg l) (k : Nat) (b : B)
    (a raw r payload : Bytes) (hd : cfg.decode raw = some (.direct r payload))
    (honce : ls.filter (publishes k) = [.publish b a k raw]) (u : Bytes) :
    let n := (Net.start ((MNet.start : MNet Bytes B Topic H).run (l1 ++ l2)).st hook).run cfg ls
    copiesReceived n u k ≤ 1 ∧
    (¬ (u = r ∧ whereabouts r l2 none ≠ none) → copiesReceived n u k = 0) ∧
    (Quiescent n → u = r → whereabouts r l2 none ≠ none → copiesReceived n u k = 1) := by
  intro n
  rw [List.length_append] at hlen1
  have hloc := fun u b => C74_in_turn_partial u l1 l2 (hno u) hlinks hinit (hturn u) (by omega) (by omega)
    (hway u) (hann u) b
  have hinv := MNet.inv_run (MNet.inv_start (U := Bytes) (B := B) (T := Topic) (H := H)) (l1 ++ l2)
    (by rw [List.length_append]; omega)
  have hst : Stable ((MNet.start : MNet Bytes B Topic H).run (l1 ++ l2)) u := by
    rw [Mesh.run_append]
    have hunk := unknown_run l1 _ (unknown_start (U := Bytes) (B := B) (T := Topic) (H := H) u) (hno u)
    have hirr := (MNet.inv_run (MNet.inv_start (U := Bytes) (B := B) (T := Topic) (H := H)) l1 (by omega)).irrefl
    have h0 : Stable ((MNet.start : MNet Bytes B Topic H).run l1) u := by
      refine ⟨hunk.ident, ?_, hinit, fun τ hτ h => absurd (hunk.task τ hτ) h⟩
      intro x y
      constructor
      · rintro h rfl; exact h (hirr x)
      · intro h; exact (knows_iff _ _ _).1 (hlinks x y h).1
    have hrun : ∀ (ls : List (MLabel Bytes B Topic H)) (n : MNet Bytes B Topic H), Stable n u →
        InTurn u n ls → Stable (n.run ls) u := by
      intro ls
      induction ls with
      | nil => intro n h _; exact h
      | cons l ls ih => intro n h ht; exact ih _ (stable_step h l ⟨ht.1, trivial⟩) ht.2
    exact hrun l2 _ h0 (hturn u)
  have hmesh : Network.Mesh (fun _ => True) ((MNet.start : MNet Bytes B Topic H).run (l1 ++ l2)).st
      (fun u => whereabouts u l2 none) := by
    refine ⟨fun b _ => hinv.ident b, ?_, ?_, fun _ _ _ => trivial, fun b u _ => (hloc u b).2⟩
    · intro x y _ _ hne
      exact (knows_iff _ _ _).2 ((hst.links x y).2 hne)
    · intro x y _ hk
      exact ⟨trivial, fun e => (hst.links x y).1 ((knows_iff _ _ _).1 hk) e.symm⟩
  have := C19_direct_exactly_once cfg hT (fun _ => True) _ _ hmesh (fun b u _ => (hloc u b).1) hook ls hl k b
    trivial a raw r payload hd honce u
  refine ⟨this.1, fun h => this.2.1 (fun h' => h ⟨h'.1, ?_⟩), fun hq h1 h2 => this.2.2 hq h1 ?_⟩
  · intro e
    have := h'.2
    simp only [e] at this
    simp at this
  · cases e : whereabouts r l2 none with
    | none => exact absurd e h2
    | some => rfl

/-! ### A case -/

/-- A toy configuration with the no-op hook. -/
def toyCfg : Cfg (Fin 3) Nat where
  decode
    | 3 :: r => some (.direct r [])
    | _ => none
  decUserSync _ := none
  decTopicSync _ := none
  valid _ := true
  userHook h m := (h, m, .process)
  brokerHook h m := (h, m, .process)

def toyLinks : List (MLabel Bytes (Fin 3) Topic Nat) :=
  [.linkUp 0 1 100 101, .drop 0 1, .drop 1 0, .linkUp 0 1 102 103, .linkUp 1 2 104 105, .linkUp 0 2 106 107,
   .fullUser 0 1, .fullUser 0 1, .fullUser 1 0, .fullUser 1 0, .fullUser 1 2, .fullUser 2 1, .fullUser 0 2,
   .fullUser 2 0]

/-- User 7 connects to broker 0 and moves to broker 2; user 8 connects to broker 1 meanwhile. -/
def toyUsers : List (MLabel Bytes (Fin 3) Topic Nat) :=
  [.connect 0 [7] 110 [1], .startUser 0, .readDests 0, .send 0 true, .send 0 true,
   .deliver 0 1, .deliver 0 2, .connect 2 [7] 111 [2], .connect 1 [8] 112 [], .startUser 2, .startUser 1,
   .readDests 2, .readDests 1, .send 2 true, .send 1 true, .send 2 true, .send 1 true,
   .deliver 2 0, .deliver 1 0, .deliver 1 2, .deliver 2 1]

def toyEnd : MNet Bytes (Fin 3) Topic Nat := (MNet.start : MNet Bytes (Fin 3) Topic Nat).run (toyLinks ++ toyUsers)

/-- `[8]` writes to `[7]`, who has moved to broker 2; `[7]` writes to nobody there is. -/
def toyPublish : List (Label (Fin 3) Nat) :=
  [.publish 1 [8] 5 [3, 7], .publish 2 [7] 6 [3, 9], .take 1 (.user [8]), .send 1 (.user [8]) true,
   .take 2 (.user [7]), .take 2 (.broker 1), .send 2 (.broker 1) true]

theorem toy_nothing (u : Bytes) : NothingUnderWay u toyEnd := by
  have h : (∀ x y : Fin 3, (toyEnd.ch x y).length = 0) ∧
      toyEnd.tasks.all (fun τ => τ.dests == some []) = true := by decide +kernel
  refine ⟨fun x y m hm => ?_, fun τ hτ => Or.inr ?_⟩
  · rw [List.length_eq_zero_iff.1 (h.1 x y)] at hm; simp at hm
  · simpa using List.all_eq_true.1 h.2 τ hτ

theorem toy_announced (u : Bytes) (b : Fin 3) : ¬ Unannounced u toyEnd b := by
  have h : ∀ b : Fin 3, (toyEnd.st b).direct.modified.elems = [] := by decide +kernel
  unfold Unannounced
  rw [FSet.mem_def, h b]; simp

/-- The hypotheses of C75 hold. -/
example : Transparent toyCfg ∧ (∀ u, ∀ l ∈ toyLinks, ¬ Connects u l) ∧
    (∀ b b', b ≠ b' → Linked ((MNet.start : MNet Bytes (Fin 3) Topic Nat).run toyLinks) b b') ∧
    ((MNet.start : MNet Bytes (Fin 3) Topic Nat).run toyLinks).fullU = [] ∧
    (∀ u, InTurn u ((MNet.start : MNet Bytes (Fin 3) Topic Nat).run toyLinks) toyUsers) ∧
    (∀ u, NothingUnderWay u toyEnd) ∧ (∀ u b, ¬ Unannounced u toyEnd b) ∧
    (∀ l ∈ toyPublish, Static toyCfg l) ∧
    toyPublish.filter (publishes 5) = [.publish 1 [8] 5 [3, 7]] ∧
    toyPublish.filter (publishes 6) = [.publish 2 [7] 6 [3, 9]] ∧
    whereabouts [7] toyUsers none = some 2 ∧ whereabouts [9] toyUsers none = none := by
  refine ⟨fun _ _ => ⟨rfl, rfl⟩, ?_, ?_, by decide +kernel, fun u => inTurnB_sound _ _ _ (by decide +kernel),
    toy_nothing, toy_announced, ?_, rfl, rfl, by decide +kernel, by decide +kernel⟩
  · intro u l hl
    simp only [toyLinks, List.mem_cons, List.not_mem_nil, or_false] at hl
    rcases hl with rfl | rfl | rfl | rfl | rfl | rfl | rfl | rfl | rfl | rfl | rfl | rfl | rfl | rfl <;>
      simp [Connects]
  · unfold Linked; decide +kernel
  · intro l hl
    simp only [toyPublish, List.mem_cons, List.not_mem_nil, or_false] at hl
    rcases hl with rfl | rfl | rfl | rfl | rfl | rfl | rfl
    all_goals first | rfl | trivial

/-- The message has reached user 7 once, at its new broker, and nothing is in flight. -/
example : let n := (Net.start toyEnd.st (fun _ _ => 0)).run toyCfg toyPublish
    n.wire.length = 0 ∧ n.pend.length = 0 ∧ copiesReceived n [7] 5 = 1 ∧ copiesReceived n [8] 5 = 0 ∧
    copiesReceived n [7] 6 = 0 ∧ copiesReceived n [8] 6 = 0 := by decide +kernel
end

end Verif.Props.MeshTurn
