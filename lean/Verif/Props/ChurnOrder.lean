import Verif.Props.ChurnDirect
import Verif.Lemmas.ChurnOrder

/-!
# Property C117: messages arrive in order while the mesh changes
-/

set_option linter.unusedSectionVars false

namespace Verif.Props.Churn
open Verif Verif.Conns Verif.LNet Verif.Props.Linking Verif.Props.Network Verif.Net Verif.Broker

variable {B σ : Type} [DecidableEq B] [LT B] [DecidableLT B]

/-! ## Specification -/

/-- What `u` has received of the messages of `a` that count: identities and frames, oldest first. -/
def receivedFrom (W : Bytes → Bool) (n : Net B Nat σ) (u a : Bytes) : List (Nat × Bytes) :=
  (n.inbox.filter (fun x => decide (x.1 = u ∧ x.2.src = a ∧ W x.2.raw = true))).map (fun x => (x.2.id, x.2.raw))

/-- What `a` has published of the messages that count, oldest first. -/
def publishedFrom (W : Bytes → Bool) (a : Bytes) (js : List (CLabel B)) : List (Nat × Bytes) :=
  js.filterMap (fun
    | .msg (.publish _ u' id raw) => if u' = a ∧ W raw = true then some (id, raw) else none
    | _ => none)

/-- What happens to messages meanwhile: `a` publishes at `b0` only, and nothing for which a broker ends their connection;
brokers send each other nothing of that kind, and on their own account nothing that counts (they send each other syncs);
no send to `u` and no send to `h` fails. What other users publish is arbitrary, and sends to other users and to other
brokers may fail. -/
def Calm (cfg : Cfg B σ) (W : Bytes → Bool) (u : Bytes) (h b0 : B) (a : Bytes) (n : Net B Nat σ) : Label B Nat → Prop
  | .publish b u' _ raw => u' = a → b = b0 ∧ Passes cfg Nat (.user a) raw
  | .originate _ b' _ raw => W raw = false ∧ Passes cfg Nat (.broker b') raw
  | .take _ _ => True
  | .send b frm ok => ok = true ∨
      ∀ t, n.pend.find? (Todo.for' b frm) = some t → t.dest ≠ .user u ∧ t.dest ≠ .broker h
  | .setTable _ _ => False

/-- Broadcasts on one of these topics, which must be valid. -/
def onTopics (cfg : Cfg B σ) (steady : List Topic) (raw : Bytes) : Bool :=
  match cfg.decode raw with
  | some (.broadcast ts _) => ts.any (fun t => steady.contains t && cfg.valid t)
  | _ => false

/-- Direct messages to `u`. -/
def toUser (cfg : Cfg B σ) (u : Bytes) (raw : Bytes) : Bool :=
  match cfg.decode raw with
  | some (.direct r _) => decide (r = u)
  | _ => false

/-! ## Proof -/

theorem receivedFrom_eq (W : Bytes → Bool) (n : Net B Nat σ) (u a : Bytes) : receivedFrom W n u a = got W a u n.inbox := by
  unfold receivedFrom got
  have : (fun x : Bytes × Pkt => decide (x.1 = u ∧ x.2.src = a ∧ W x.2.raw = true)) =
      (fun x => decide (x.1 = u) && want W a x.2) := by
    funext x
    simp [want, Bool.decide_and]
  rw [this]; rfl

theorem publishedFrom_cons (W : Bytes → Bool) (a : Bytes) (l : CLabel B) (js : List (CLabel B)) :
    publishedFrom W a (l :: js) = (match l with | .msg l => publishedBy W a l | _ => []) ++ publishedFrom W a js := by
  unfold publishedFrom
  cases l with
  | msg l =>
    cases l with
    | publish b u' id raw =>
      simp only [List.filterMap_cons, publishedBy]
      by_cases h : u' = a ∧ W raw = true
      · simp [h]
      · simp only [if_neg h, List.nil_append]
    | _ => rfl
  | _ => rfl

theorem orderly_of_calm {cfg : Cfg B σ} {W : Bytes → Bool} {u : Bytes} {h b0 : B} {a : Bytes} {n : Net B Nat σ}
    {l : Label B Nat} (hl : Calm cfg W u h b0 a n l) : Orderly cfg W u h b0 a n l := by
  cases l <;> exact hl

theorem fI_eraseIdx {W : Bytes → Bool} {a : Bytes} (b : B) (frm : Dest B) (w : List (Item B)) (i : Nat) (x : Item B)
    (hx : w[i]? = some x) (h : ¬ (x.here = b ∧ x.frm = frm)) : fI W a b frm (w.eraseIdx i) = fI W a b frm w := by
  induction w generalizing i with
  | nil => simp at hx
  | cons y w ih =>
    have hc : ∀ z (l : List (Item B)), fI W a b frm (z :: l) = fI W a b frm [z] ++ fI W a b frm l :=
      fun z l => fI_append b frm [z] l
    cases i with
    | zero =>
      simp only [List.getElem?_cons_zero, Option.some.injEq] at hx; subst hx
      rw [List.eraseIdx_cons_zero, hc, fI_single, if_neg (fun e => h ⟨e.1, e.2.1⟩)]; rfl
    | succ i =>
      simp only [List.getElem?_cons_succ] at hx
      rw [List.eraseIdx_cons_succ, hc, hc y w, ih i hx]

theorem fT_eraseIdx {W : Bytes → Bool} {a : Bytes} (b : B) (frm d : Dest B) (w : List (Todo B)) (i : Nat) (x : Todo B)
    (hx : w[i]? = some x) (h : ¬ (x.here = b ∧ x.frm = frm)) : fT W a b frm d (w.eraseIdx i) = fT W a b frm d w := by
  induction w generalizing i with
  | nil => simp at hx
  | cons y w ih =>
    have hc : ∀ z (l : List (Todo B)), fT W a b frm d (z :: l) = fT W a b frm d [z] ++ fT W a b frm d l :=
      fun z l => fT_append b frm d [z] l
    cases i with
    | zero =>
      simp only [List.getElem?_cons_zero, Option.some.injEq] at hx; subst hx
      rw [List.eraseIdx_cons_zero, hc, fT_single, if_neg (fun e => h ⟨e.1, e.2.1⟩)]; rfl
    | succ i =>
      simp only [List.getElem?_cons_succ] at hx
      rw [List.eraseIdx_cons_succ, hc, hc y w, ih i hx]

theorem line_lose (cfg : Cfg B σ) {W : Bytes → Bool} {u : Bytes} {h b0 : B} {a : Bytes} (s : Churn B σ)
    (hU : Inline cfg W h b0 a s.net) (hf : Firm s h b0 a) (i : Nat) :
    (line W a u h b0 (s.step cfg (.lose i)).net = line W a u h b0 s.net ∧ Inline cfg W h b0 a (s.step cfg (.lose i)).net ∧
      (s.step cfg (.lose i)).net.tab = s.net.tab) ∧
    (line W a u h b0 (s.step cfg (.loseSend i)).net = line W a u h b0 s.net ∧
      Inline cfg W h b0 a (s.step cfg (.loseSend i)).net ∧ (s.step cfg (.loseSend i)).net.tab = s.net.tab) := by
  have bad1 : ∀ b frm, s.loose b frm = true → ¬ (b = b0 ∧ frm = .user a) := by
    rintro b frm hl ⟨rfl, rfl⟩
    rw [hf.1] at hl; cases hl
  have bad2 : b0 ≠ h → ∀ b frm, s.loose b frm = true → ¬ (b = h ∧ frm = .broker b0) := by
    rintro h1 b frm hl ⟨rfl, rfl⟩
    rw [hf.2 h1] at hl; cases hl
  constructor
  · simp only [Churn.step]
    split
    · rename_i x hx
      split
      · rename_i hl
        refine ⟨?_, inline_sub hU (fun j hj => List.mem_of_mem_eraseIdx hj) (fun _ h => h) rfl, rfl⟩
        unfold line stage
        by_cases e : b0 = h
        · subst e
          simp only [if_true, fI_eraseIdx _ _ _ i x hx (bad1 _ _ hl)]
        · simp only [if_neg e, fI_eraseIdx _ _ _ i x hx (bad1 _ _ hl), fI_eraseIdx _ _ _ i x hx (bad2 e _ _ hl)]
      · exact ⟨rfl, hU, rfl⟩
    · exact ⟨rfl, hU, rfl⟩
  · simp only [Churn.step]
    split
    · rename_i x hx
      split
      · rename_i hl
        refine ⟨?_, inline_sub hU (fun _ h => h) (fun j hj => List.mem_of_mem_eraseIdx hj) rfl, rfl⟩
        unfold line stage
        by_cases e : b0 = h
        · subst e
          simp only [if_true, fT_eraseIdx _ _ _ _ i x hx (bad1 _ _ hl)]
        · simp only [if_neg e, fT_eraseIdx _ _ _ _ i x hx (bad1 _ _ hl), fT_eraseIdx _ _ _ _ i x hx (bad2 e _ _ hl)]
      · exact ⟨rfl, hU, rfl⟩
    · exact ⟨rfl, hU, rfl⟩

/-- What has to hold at every moment. -/
structure Open (cfg : Cfg B σ) (W : Bytes → Bool) (u : Bytes) (h b0 : B) (a : Bytes) (s : Churn B σ) : Prop where
  at' : OnlyAt s.mesh h u
  self : s.mesh.conn h h = none
  link : b0 ≠ h → (s.mesh.conn b0 h).isSome
  firm : Firm s h b0 a
  reach : ∀ raw, W raw = true → Reaches cfg s.mesh.st u h b0 raw

theorem line_run (cfg : Cfg B σ) (hT : Transparent cfg) {W : Bytes → Bool} {u : Bytes} {h b0 : B} {a : Bytes}
    (hgood : ∀ raw, W raw = true → Net.Good cfg raw) (js : List (CLabel B)) (s : Churn B σ) (htab : s.net.tab = s.mesh.st)
    (hU : Inline cfg W h b0 a s.net) (hopen : ∀ p, p <+: js → Open cfg W u h b0 a (s.run cfg p))
    (hcalm : ∀ p l, p ++ [.msg l] <+: js → Calm cfg W u h b0 a (s.run cfg p).net l) :
    line W a u h b0 (s.run cfg js).net = line W a u h b0 s.net ++ publishedFrom W a js := by
  induction js generalizing s with
  | nil => simp [Churn.run, publishedFrom]
  | cons l js ih =>
    have ho' : ∀ p, p <+: js → Open cfg W u h b0 a ((s.step cfg l).run cfg p) :=
      fun p hp => hopen (l :: p) (List.cons_prefix_cons.2 ⟨rfl, hp⟩)
    have hc' : ∀ p l', p ++ [.msg l'] <+: js → Calm cfg W u h b0 a ((s.step cfg l).run cfg p).net l' :=
      fun p l' hp => hcalm (l :: p) l' (List.cons_prefix_cons.2 ⟨rfl, hp⟩)
    have h0 : Open cfg W u h b0 a s := hopen [] List.nil_prefix
    rw [run_cons', publishedFrom_cons]
    cases l with
    | lose i =>
      obtain ⟨⟨h1, h2, h3⟩, _⟩ := line_lose (u := u) cfg s hU h0.firm i
      rw [ih (s.step cfg (.lose i)) (by rw [h3, htab, (loose_lose cfg s i).2.2.1]) h2 ho' hc', h1]
      simp
    | loseSend i =>
      obtain ⟨_, ⟨h1, h2, h3⟩⟩ := line_lose (u := u) cfg s hU h0.firm i
      rw [ih (s.step cfg (.loseSend i)) (by rw [h3, htab, (loose_lose cfg s i).2.2.2]) h2 ho' hc', h1]
      simp
    | mesh l =>
      rw [ih (s.step cfg (.mesh l)) rfl (inline_sub hU (fun _ h => h) (fun _ h => h) rfl) ho' hc']
      rfl
    | msg l =>
      have hl := orderly_of_calm (hcalm [] l (by simp))
      have hU' := inline_step cfg hT hU (by rw [htab]; exact h0.self) l hl
      rw [ih (s.step cfg (.msg l)) rfl (inline_sub hU' (fun _ h => h) (fun _ h => h) rfl) ho' hc']
      have := line_step cfg hT hgood hU (by rw [htab]; exact h0.at'.1) (by
        intro x hx
        rw [htab]
        cases hc : (s.mesh.st x).getUserConnection u with
        | none => rfl
        | some v => exact absurd (show LAt s.mesh x u by unfold LAt; rw [hc]; rfl) (h0.at'.2 x hx))
        (by rw [htab]; exact h0.link) (by rw [htab]; exact h0.reach) l hl
      have h2 : line W a u h b0 (s.step cfg (.msg l)).net = line W a u h b0 (s.net.step cfg l) := rfl
      rw [h2, this, List.append_assoc]

/-- Received in order, and completely when everything has been delivered, if the way is open all the time. -/
theorem order_of_open (cfg : Cfg B σ) (hT : Transparent cfg) {W : Bytes → Bool} {u : Bytes} {h b0 : B} {a : Bytes}
    (hgood : ∀ raw, W raw = true → Net.Good cfg raw) (m : LNet Bytes B Topic) (hook : B → Dest B → σ) (js : List (CLabel B))
    (v c : Nat)
    (hall : ∀ p, p <+: js → OnlyAt ((Churn.ofMesh m hook).run cfg p).mesh h u ∧
      Kept ((Churn.ofMesh m hook).run cfg p).mesh h b0 a v c)
    (hself : ∀ p, p <+: js → ((Churn.ofMesh m hook).run cfg p).mesh.conn h h = none)
    (hreach : ∀ p, p <+: js → ∀ raw, W raw = true → Reaches cfg ((Churn.ofMesh m hook).run cfg p).mesh.st u h b0 raw)
    (hcalm : ∀ p l, p ++ [.msg l] <+: js → Calm cfg W u h b0 a ((Churn.ofMesh m hook).run cfg p).net l) :
    receivedFrom W ((Churn.ofMesh m hook).run cfg js).net u a <+: publishedFrom W a js ∧
    (Quiescent ((Churn.ofMesh m hook).run cfg js).net →
      receivedFrom W ((Churn.ofMesh m hook).run cfg js).net u a = publishedFrom W a js) := by
  have hstart : Inline cfg W h b0 a (Churn.ofMesh m hook : Churn B σ).net :=
    ⟨hopInv_start _ _, by simp [Churn.ofMesh, Net.start], by simp [Churn.ofMesh, Net.start], by simp [Churn.ofMesh, Net.start],
      by simp [Churn.ofMesh, Net.start], by simp [Churn.ofMesh, Net.start], by simp [Churn.ofMesh, Net.start],
      by simp [Churn.ofMesh, Net.start]⟩
  have hl := line_run cfg hT hgood js (Churn.ofMesh m hook) rfl hstart (fun p hp => ⟨(hall p hp).1, hself p hp,
    fun e => by rw [((hall p hp).2.2 e).2]; rfl,
    firm_run cfg p _ (firm_start m hook (hall [] List.nil_prefix).2) (fun q hq => (hall q (hq.trans hp)).2),
    hreach p hp⟩) hcalm
  have h0 : line W a u h b0 (Churn.ofMesh m hook : Churn B σ).net = [] := by
    simp [line, stage, got, fI, fT, Churn.ofMesh, Net.start]
  rw [h0, List.nil_append] at hl
  rw [receivedFrom_eq]
  generalize (Churn.ofMesh m hook).run cfg js = s at *
  rw [← hl]
  refine ⟨List.prefix_append _ _, fun hq => ?_⟩
  simp [line, stage, fI, fT, hq.1, hq.2]

theorem regOk_run (l : List (LLabel Bytes B Topic)) (n : LNet Bytes B Topic) (h : RegOk n) : RegOk (n.run l) := by
  induction l generalizing n with
  | nil => exact h
  | cons x l ih => exact ih _ (regOk_step h x)

theorem regOk_start : RegOk (LNet.start : LNet Bytes B Topic) :=
  ⟨fun _ _ _ e => (nomatch e), fun _ _ _ e => (nomatch e)⟩

theorem self_run (cfg : Cfg B σ) (l : List (LLabel Bytes B Topic)) (hook : B → Dest B → σ) (p : List (CLabel B)) (h : B) :
    ((Churn.ofMesh ((LNet.start : LNet Bytes B Topic).run l) hook).run cfg p).mesh.conn h h = none := by
  rw [mesh_run]
  exact (regOk_run _ _ (regOk_run _ _ regOk_start)).self h

theorem onTopics_spec (cfg : Cfg B σ) (steady : List Topic) (raw : Bytes) (hW : onTopics cfg steady raw = true) :
    ∃ ts payload t, cfg.decode raw = some (.broadcast ts payload) ∧ t ∈ ts ∧ t ∈ steady ∧ cfg.valid t = true := by
  unfold onTopics at hW
  split at hW
  · rename_i ts payload hd
    obtain ⟨t, h1, h2⟩ := List.any_eq_true.1 hW
    simp only [Bool.and_eq_true, List.contains_iff_mem] at h2
    exact ⟨ts, payload, t, hd, h1, h2.1, h2.2⟩
  · cases hW

theorem toUser_spec (cfg : Cfg B σ) (u raw : Bytes) (hW : toUser cfg u raw = true) :
    ∃ payload, cfg.decode raw = some (.direct u payload) := by
  unfold toUser at hW
  split at hW
  · rename_i r payload hd
    have := of_decide_eq_true hW
    subst this
    exact ⟨payload, hd⟩
  · cases hW

theorem onTopics_good (cfg : Cfg B σ) (steady : List Topic) (raw : Bytes) (hW : onTopics cfg steady raw = true) :
    Net.Good cfg raw := by
  obtain ⟨ts, payload, t, hd, h1, _, h2⟩ := onTopics_spec cfg steady raw hW
  unfold Net.Good; rw [hd]; exact ⟨t, h1, h2⟩

theorem toUser_good (cfg : Cfg B σ) (u raw : Bytes) (hW : toUser cfg u raw = true) : Net.Good cfg raw := by
  obtain ⟨payload, hd⟩ := toUser_spec cfg u raw hW
  unfold Net.Good; rw [hd]; trivial

/-- **C117, broadcasts.** In the situation of `C115_broadcast`, for a list `steady` of topics to which `u` stays
subscribed: what `u` has received of the broadcasts that `a` publishes on these topics is, at any time, the first of
them in the order they were published, none missing and none twice; and all of them when nothing is under way any more. -/
theorem C117_broadcasts (cfg : Cfg B σ) (hT : Transparent cfg) (l1 : List (LLabel Bytes B Topic)) (js : List (CLabel B))
    (hlen : l1.length + js.length < 2 ^ 64)
    (hook : B → Dest B → σ) (u a : Bytes) (h b0 : B) (steady : List Topic) (v c : Nat)
    (hmis : b0 ≠ h → NeverMisled c h b0 LNet.start (l1 ++ meshLabels js))
    (hset : b0 ≠ h → TopicsSettled ((LNet.start : LNet Bytes B Topic).run l1) c h b0)
    (hall : ∀ p, p <+: js →
      let m := ((Churn.ofMesh ((LNet.start : LNet Bytes B Topic).run l1) hook).run cfg p).mesh
      OnlyAt m h u ∧ (∀ t ∈ steady, u ∈ ((m.st h).getInterestedByTopic [t] true).2) ∧ Kept m h b0 a v c)
    (hcalm : ∀ p l, p ++ [.msg l] <+: js → Calm cfg (onTopics cfg steady) u h b0 a
      ((Churn.ofMesh ((LNet.start : LNet Bytes B Topic).run l1) hook).run cfg p).net l) :
    let n := ((Churn.ofMesh ((LNet.start : LNet Bytes B Topic).run l1) hook).run cfg js).net
    receivedFrom (onTopics cfg steady) n u a <+: publishedFrom (onTopics cfg steady) a js ∧
    (Quiescent n → receivedFrom (onTopics cfg steady) n u a = publishedFrom (onTopics cfg steady) a js) := by
  refine order_of_open cfg hT (onTopics_good cfg steady) _ hook js v c (fun p hp => ⟨(hall p hp).1, (hall p hp).2.2⟩)
    (fun p _ => self_run cfg l1 hook p h) ?_ hcalm
  intro p hp raw hW
  obtain ⟨ts, payload, t, hd, h1, h2, h3⟩ := onTopics_spec cfg steady raw hW
  exact open_broadcast cfg l1 js hlen hook u a h b0 t v c hmis hset
    (fun q hq => ⟨(hall q hq).1, (hall q hq).2.1 t h2, (hall q hq).2.2⟩) raw ts payload hd h1 h3 p hp

/-- **C117, both kinds.** In the situation of `C115_broadcast` and `C116_direct`: what `u` has received of the direct
messages to `u` and the broadcasts on `steady` topics that `a` publishes is, at any time, the first of them in the order
they were published, none missing and none twice, whatever their kinds; and all of them when nothing is under way any
more. -/
theorem C117_both (cfg : Cfg B σ) (hT : Transparent cfg) (l1 l2 : List (LLabel Bytes B Topic)) (u : Bytes)
    (hno : ∀ l ∈ l1, ¬ LConnects u l)
    (hlinks : ∀ b b', b ≠ b' → ∃ c, Linked ((LNet.start : LNet Bytes B Topic).run l1) c b b')
    (hinit : ((LNet.start : LNet Bytes B Topic).run l1).fullU = [])
    (hturn : LInTurn u ((LNet.start : LNet Bytes B Topic).run l1) l2)
    (hway : LNothingUnderWay u ((LNet.start : LNet Bytes B Topic).run (l1 ++ l2)))
    (hann : ∀ b, ¬ LUnannounced u ((LNet.start : LNet Bytes B Topic).run (l1 ++ l2)) b)
    (h b0 : B) (hloc : lwhereabouts u l2 none = some h) (js : List (CLabel B))
    (hlen : l1.length + l2.length + js.length + 1 < 2 ^ 64)
    (hstay : ∀ l, .mesh l ∈ js → ¬ LConnects u l) (hook : B → Dest B → σ) (a : Bytes) (steady : List Topic) (v c : Nat)
    (hmis : b0 ≠ h → NeverMisled c h b0 LNet.start (l1 ++ l2 ++ meshLabels js))
    (hset : b0 ≠ h → TopicsSettled ((LNet.start : LNet Bytes B Topic).run (l1 ++ l2)) c h b0)
    (hall : ∀ p, p <+: js →
      let m := ((Churn.ofMesh ((LNet.start : LNet Bytes B Topic).run (l1 ++ l2)) hook).run cfg p).mesh
      OnlyAt m h u ∧ (∀ t ∈ steady, u ∈ ((m.st h).getInterestedByTopic [t] true).2) ∧ Kept m h b0 a v c)
    (hcalm : ∀ p l, p ++ [.msg l] <+: js → Calm cfg (fun raw => toUser cfg u raw || onTopics cfg steady raw) u h b0 a
      ((Churn.ofMesh ((LNet.start : LNet Bytes B Topic).run (l1 ++ l2)) hook).run cfg p).net l) :
    let n := ((Churn.ofMesh ((LNet.start : LNet Bytes B Topic).run (l1 ++ l2)) hook).run cfg js).net
    let W := fun raw => toUser cfg u raw || onTopics cfg steady raw
    receivedFrom W n u a <+: publishedFrom W a js ∧ (Quiescent n → receivedFrom W n u a = publishedFrom W a js) := by
  have hopen := open_direct cfg l1 l2 u hno hlinks hinit hturn (by omega) hway hann h b0 hloc js hstay hook a v c
    (fun p hp => ⟨(hall p hp).1, (hall p hp).2.2⟩)
  refine order_of_open cfg hT (fun raw hW => ?_) _ hook js v c (fun p hp => ⟨(hall p hp).1, (hall p hp).2.2⟩)
    (fun p _ => self_run cfg (l1 ++ l2) hook p h) ?_ hcalm
  · rcases (Bool.or_eq_true _ _).mp hW with h1 | h1
    · exact toUser_good cfg u raw h1
    · exact onTopics_good cfg steady raw h1
  · intro p hp raw hW
    rcases (Bool.or_eq_true _ _).mp hW with h1 | h1
    · obtain ⟨payload, hd⟩ := toUser_spec cfg u raw h1
      exact (hopen p hp).2 raw payload hd
    · obtain ⟨ts, payload, t, hd, h1, h2, h3⟩ := onTopics_spec cfg steady raw h1
      exact open_broadcast cfg (l1 ++ l2) js (by simp only [List.length_append]; omega) hook u a h b0 t v c hmis hset
        (fun q hq => ⟨(hall q hq).1, (hall q hq).2.1 t h2, (hall q hq).2.2⟩) raw ts payload hd h1 h3 p hp

/-- **C117, direct messages.** In the situation of `C116_direct`: what `u` has received of the direct messages that `a`
publishes to `u` is, at any time, the first of them in the order they were published, none missing and none twice; and
all of them when nothing is under way any more. -/
theorem C117_directs (cfg : Cfg B σ) (hT : Transparent cfg) (l1 l2 : List (LLabel Bytes B Topic)) (u : Bytes)
    (hno : ∀ l ∈ l1, ¬ LConnects u l)
    (hlinks : ∀ b b', b ≠ b' → ∃ c, Linked ((LNet.start : LNet Bytes B Topic).run l1) c b b')
    (hinit : ((LNet.start : LNet Bytes B Topic).run l1).fullU = [])
    (hturn : LInTurn u ((LNet.start : LNet Bytes B Topic).run l1) l2) (hlen : l2.length + 1 < 2 ^ 64)
    (hway : LNothingUnderWay u ((LNet.start : LNet Bytes B Topic).run (l1 ++ l2)))
    (hann : ∀ b, ¬ LUnannounced u ((LNet.start : LNet Bytes B Topic).run (l1 ++ l2)) b)
    (h b0 : B) (hloc : lwhereabouts u l2 none = some h) (js : List (CLabel B))
    (hstay : ∀ l, .mesh l ∈ js → ¬ LConnects u l) (hook : B → Dest B → σ) (a : Bytes) (v c : Nat)
    (hall : ∀ p, p <+: js →
      let m := ((Churn.ofMesh ((LNet.start : LNet Bytes B Topic).run (l1 ++ l2)) hook).run cfg p).mesh
      OnlyAt m h u ∧ Kept m h b0 a v c)
    (hcalm : ∀ p l, p ++ [.msg l] <+: js → Calm cfg (toUser cfg u) u h b0 a
      ((Churn.ofMesh ((LNet.start : LNet Bytes B Topic).run (l1 ++ l2)) hook).run cfg p).net l) :
    let n := ((Churn.ofMesh ((LNet.start : LNet Bytes B Topic).run (l1 ++ l2)) hook).run cfg js).net
    receivedFrom (toUser cfg u) n u a <+: publishedFrom (toUser cfg u) a js ∧
    (Quiescent n → receivedFrom (toUser cfg u) n u a = publishedFrom (toUser cfg u) a js) := by
  have hopen := open_direct cfg l1 l2 u hno hlinks hinit hturn hlen hway hann h b0 hloc js hstay hook a v c hall
  refine order_of_open cfg hT (toUser_good cfg u) _ hook js v c hall (fun p _ => self_run cfg (l1 ++ l2) hook p h) ?_ hcalm
  intro p hp raw hW
  obtain ⟨payload, hd⟩ := toUser_spec cfg u raw hW
  exact (hopen p hp).2 raw payload hd

/-! ## Example -/

/-- Decision procedure for `Calm` (no broker originates a frame). -/
def calmB (cfg : Cfg B σ) (u : Bytes) (h b0 : B) (a : Bytes) (n : Net B Nat σ) : Label B Nat → Bool
  | .publish b u' _ raw => u' != a || (b == b0 &&
      (match cfg.decode raw with
       | some (.broadcast ts _) => ts.any cfg.valid
       | some (.direct _ _) => true
       | _ => false))
  | .originate .. => false
  | .take .. => true
  | .send b frm ok => ok ||
      (match n.pend.find? (Todo.for' b frm) with
       | some t => t.dest != .user u && t.dest != .broker h
       | none => true)
  | .setTable .. => false

def calmAll (cfg : Cfg B σ) (u : Bytes) (h b0 : B) (a : Bytes) (s : Churn B σ) : List (CLabel B) → Bool
  | [] => true
  | .msg l :: js => calmB cfg u h b0 a s.net l && calmAll cfg u h b0 a (s.step cfg (.msg l)) js
  | l :: js => calmAll cfg u h b0 a (s.step cfg l) js

theorem calmB_sound (cfg : Cfg B σ) (hT : Transparent cfg) (W : Bytes → Bool) (u : Bytes) (h b0 : B) (a : Bytes)
    (n : Net B Nat σ) (l : Label B Nat) (hh : calmB cfg u h b0 a n l = true) : Calm cfg W u h b0 a n l := by
  cases l with
  | publish b u' id raw =>
    intro e
    simp only [calmB, Bool.or_eq_true, bne_iff_ne, ne_eq, Bool.and_eq_true, beq_iff_eq] at hh
    rcases hh with hh | ⟨h1, hh⟩
    · exact absurd e hh
    · refine ⟨h1, passes_good cfg hT _ _ ?_⟩
      unfold Net.Good
      split at hh
      · rename_i hd; rw [hd]; obtain ⟨t, h1, h2⟩ := List.any_eq_true.1 hh; exact ⟨t, h1, h2⟩
      · rename_i hd; rw [hd]; trivial
      · cases hh
  | originate => cases hh
  | take => trivial
  | send b frm ok =>
    simp only [calmB, Bool.or_eq_true] at hh
    rcases hh with hh | hh
    · exact Or.inl hh
    · right
      intro t ht
      rw [ht] at hh
      simpa using hh
  | setTable => cases hh

theorem calmAll_sound (cfg : Cfg B σ) (hT : Transparent cfg) (W : Bytes → Bool) (u : Bytes) (h b0 : B) (a : Bytes)
    (js : List (CLabel B)) (s : Churn B σ) (hh : calmAll cfg u h b0 a s js = true) (p : List (CLabel B))
    (l : Label B Nat) (hp : p ++ [.msg l] <+: js) : Calm cfg W u h b0 a (s.run cfg p).net l := by
  induction js generalizing s p with
  | nil => have := List.prefix_nil.1 hp; simp at this
  | cons x js ih =>
    cases p with
    | nil =>
      obtain ⟨rfl, _⟩ := List.cons_prefix_cons.1 hp
      simp only [calmAll, Bool.and_eq_true] at hh
      exact calmB_sound cfg hT W u h b0 a _ _ hh.1
    | cons y p =>
      obtain ⟨rfl, hp'⟩ := List.cons_prefix_cons.1 hp
      cases y with
      | msg m =>
        simp only [calmAll, Bool.and_eq_true] at hh
        exact ih _ hh.2 p hp'
      | _ => exact ih _ hh p hp'

/-- User `[2]` connects to broker 1 with topic 0, user `[3]` to broker 0; broker 1 announces the user and the topic. -/
def bothUsers : List (LLabel Bytes (Fin 3) Topic) :=
  [.fullTopic 1 0, .connect 1 [2] 12 [0], .connect 0 [3] 13 [1], .startUser 1, .readDests 0, .lookup 0, .push 0 true,
   .lookup 0, .push 0 true, .deliver 0 1 0, .deliver 2 1 2, .startTopic 1, .readDests 1, .lookup 1, .push 1 true,
   .lookup 1, .push 1 true, .deliver 0 1 0]

/-- `[3]` publishes a broadcast, a direct message to `[2]` and another broadcast, which are handled in turns; meanwhile
`[5]` connects, publishes, too, and connects again, and brokers 1 and 2 lose their connection. -/
def bothDuring : List (CLabel (Fin 3)) :=
  [.msg (.publish 0 [3] 7 [4, 0]), .msg (.publish 0 [3] 8 [3, 2]), .mesh (.connect 0 [5] 15 [0]), .msg (.publish 0 [5] 20 [3, 2]),
   .msg (.take 0 (.user [5])), .msg (.take 0 (.user [3])), .msg (.send 0 (.user [3]) true), .msg (.send 0 (.user [3]) true),
   .mesh (.connect 0 [5] 16 [1]), .loseSend 0, .mesh (.drop 1 2), .msg (.take 0 (.user [3])), .msg (.publish 0 [3] 9 [4, 0]),
   .msg (.take 1 (.broker 0)), .msg (.send 0 (.user [3]) true), .msg (.take 0 (.user [3])), .mesh (.subscribe 1 [2] [1]),
   .msg (.send 0 (.user [3]) true), .msg (.send 1 (.broker 0) true), .msg (.take 1 (.broker 0)), .msg (.send 1 (.broker 0) true),
   .mesh (.drop 2 1), .msg (.take 1 (.broker 0)), .msg (.send 1 (.broker 0) true)]

def bothMesh : LNet Bytes (Fin 3) Topic := (LNet.start : LNet Bytes (Fin 3) Topic).run (threeLinks ++ bothUsers)

/-- The hypotheses of `C117_both` (and so of the others) hold, and the messages arrive in order. -/
example : let n := (LNet.start : LNet Bytes (Fin 3) Topic).run threeLinks
    (∀ l ∈ threeLinks, ¬ LConnects [2] l) ∧ (∀ b b', b ≠ b' → ∃ c, Linked n c b b') ∧ n.fullU = [] ∧
    LInTurn [2] n bothUsers ∧ LNothingUnderWay [2] bothMesh ∧ (∀ b, ¬ LUnannounced [2] bothMesh b) ∧
    lwhereabouts [2] bothUsers none = some 1 ∧ NeverMisled 0 1 0 LNet.start (threeLinks ++ bothUsers ++ meshLabels bothDuring) ∧ (∀ l, .mesh l ∈ bothDuring → ¬ LConnects [2] l) ∧
    TopicsSettled bothMesh 0 1 0 ∧
    (∀ p, p <+: bothDuring →
      let m := ((Churn.ofMesh bothMesh (fun _ _ => 0)).run demoThree p).mesh
      OnlyAt m 1 [2] ∧ (∀ t ∈ [0], [2] ∈ ((m.st 1).getInterestedByTopic [t] true).2) ∧ Kept m 1 0 [3] 13 0) ∧
    (∀ p l, p ++ [.msg l] <+: bothDuring → Calm demoThree (fun raw => toUser demoThree [2] raw || onTopics demoThree [0] raw)
      [2] 1 0 [3] ((Churn.ofMesh bothMesh (fun _ _ => 0)).run demoThree p).net l) ∧
    Quiescent ((Churn.ofMesh bothMesh (fun _ _ => 0)).run demoThree bothDuring).net ∧
    receivedFrom (fun raw => toUser demoThree [2] raw || onTopics demoThree [0] raw)
      ((Churn.ofMesh bothMesh (fun _ _ => 0)).run demoThree bothDuring).net [2] [3] =
      [(7, [4, 0]), (8, [3, 2]), (9, [4, 0])] := by
  refine ⟨by simp [threeLinks, LConnects], ?_, by decide +kernel,
    linTurnB_sound 3 _ _ _ (below_run _ _ (below_start 3) (by decide +kernel)) (by decide +kernel),
    lnothingB_sound 3 _ _ (below_run _ _ (below_start 3) (by decide +kernel)) (by decide +kernel),
    by unfold LUnannounced; decide +kernel, by decide +kernel, neverB_sound _ _ _ _ _ (by decide +kernel), ?_, settledB_sound _ _ _ _ (by decide +kernel), ?_,
    calmAll_sound demoThree demoThree_transparent _ [2] 1 0 [3] bothDuring _ (by decide +kernel),
    ⟨List.length_eq_zero_iff.1 (by decide +kernel), List.length_eq_zero_iff.1 (by decide +kernel)⟩, by decide +kernel⟩
  · intro b b' hne
    have : ∀ b b' : Fin 3, b ≠ b' → ∃ c ∈ [0, 1, 2], ((LNet.start : LNet Bytes (Fin 3) Topic).run threeLinks).conn b b' = some c ∧
        ((LNet.start : LNet Bytes (Fin 3) Topic).run threeLinks).conn b' b = some c := by decide +kernel
    obtain ⟨c, _, h⟩ := this b b' hne
    exact ⟨c, h⟩
  · intro l hl
    simp only [bothDuring, List.mem_cons, List.not_mem_nil, or_false, CLabel.mesh.injEq, reduceCtorEq, false_or] at hl
    rcases hl with rfl | rfl | rfl | rfl | rfl <;> simp [LConnects]
  · intro p hp
    have := everB_sound demoThree (fun s => decide (LAt s.mesh 1 [2]) && decide (∀ x : Fin 3, x ≠ 1 → ¬ LAt s.mesh x [2]) &&
      decide ([2] ∈ ((s.mesh.st 1).getInterestedByTopic [0] true).2) && decide ((s.mesh.st 0).getUserConnection [3] = some 13) &&
      decide (s.mesh.conn 1 0 = some 0 ∧ s.mesh.conn 0 1 = some 0)) bothDuring
      (Churn.ofMesh bothMesh (fun _ _ => 0)) (by decide +kernel) p hp
    simp only [Bool.and_eq_true, decide_eq_true_eq] at this
    refine ⟨⟨this.1.1.1.1, this.1.1.1.2⟩, ?_, this.1.2, fun _ => this.2⟩
    intro t ht
    simp only [List.mem_singleton] at ht
    subst ht; exact this.1.1.2

end Verif.Props.Churn
