import Verif.Model.Churn
import Verif.Lemmas.Churn
import Verif.Props.LinkingTurn
import Verif.Props.LinkingUsers

/-!
# Properties C115, C116: messages while other users come and go
-/

set_option linter.unusedSectionVars false

namespace Verif.Props.Churn
open Verif Verif.Conns Verif.LNet Verif.Props.Linking Verif.Props.Network Verif.Net Verif.Broker

section
variable {U B T : Type} [DecidableEq U] [DecidableEq B] [DecidableEq T] [LT B] [DecidableLT B]

/-! ## Interest stays known -/

/-- `h` has announced topic `t`, and `b` knows. -/
def Told (n : LNet U B T) (h b : B) (t : T) (w : Nat) : Prop :=
  (n.S h).map.get t = some ⟨w, some .subscribed⟩ ∧
  ∃ e, (n.st b).brokers.get h = some e ∧ e.topicSync.map.get t = some ⟨w, some .subscribed⟩

theorem told_act {P : Nat → B → B → Prop} {n n' : LNet U B T} {k : Nat} (hI : Inv P n k) {h b : B} {t : T} {w : Nat} (ht : Told n h b t w)
    (hloc : (n.st h).LocalTopic t) (x : B) (op : Op U B T Nat) (hst : n'.st = (n.act x op).st)
    (hna : x = b → NotAbout h op) : Told n' h b t w := by
  obtain ⟨h1, e, h2, h3⟩ := ht
  refine ⟨?_, e, ?_, h3⟩
  · show (n'.st h).topicSync.map.get t = _
    rw [hst, st_act]
    split
    · rename_i ex; subst ex
      by_cases hop : op = .partialTopicSync
      · subst hop
        obtain ⟨_, _, _, _, p5, _⟩ := partialTopicSync_spec (n.st h) (hI.own h).index (hI.own h).clean
        show (n.st h).getPartialTopicSync.1.topicSync.map.get t = _
        have hp : t ∈ (n.st h).prev := ((hI.own h).prev t).1 (by simp only [VMap.get]; rw [h1]; rfl)
        rw [p5 t, if_neg (fun e => e.2 hp), if_neg (fun e => e.2 hloc)]
        exact h1
      · rw [(topicSync_step _ _ hop).1]; exact h1
    · exact h1
  · rw [hst, st_act]
    split
    · rename_i ex; subst ex
      rw [(notAbout_step _ h op (hI.own _).index (hna rfl)).1]; exact h2
    · exact h2

theorem told_step {P : Nat → B → B → Prop} {n : LNet U B T} {k : Nat} (hI : Inv P n k) {h b : B} {t : T} {w c : Nat}
    (hP : P c h b) (ht : Told n h b t w)
    (hloc : (n.st h).LocalTopic t) (l : LLabel U B T) (hl : ¬ Misled c h b n l) (h1 : Linked n c h b)
    (h2 : Linked (n.step l) c h b) : Told (n.step l) h b t w := by
  have same : ∀ n' : LNet U B T, n'.st = n.st → Told n' h b t w := by
    intro n' e; unfold Told S; rw [e]; exact ht
  have act : ∀ (x : B) (op : Op U B T Nat) (n' : LNet U B T), n'.st = (n.act x op).st → (x = b → NotAbout h op) →
      Told n' h b t w := fun x op n' e hna => told_act hI ht hloc x op e hna
  have gone : ∀ n' : LNet U B T, n'.st = (n.act b (.removeBroker h)).st → n'.conn b h ≠ some c := by
    intro n' e hc
    unfold conn at hc
    rw [e, st_act_self] at hc
    unfold getBrokerConnection at hc
    rw [show (n.st b).step (.removeBroker h) = (n.st b).removeBroker h from rfl, removeBroker_brokers_get] at hc
    simp at hc
  cases l with
  | connect x u hd ts => exact act x _ _ rfl (fun _ => trivial)
  | disconnect x u => exact act x _ _ rfl (fun _ => trivial)
  | subscribe x u ts => exact act x _ _ rfl (fun _ => trivial)
  | unsubscribe x u ts => exact act x _ _ rfl (fun _ => trivial)
  | startTopic x =>
    simp only [LNet.step]; split
    · exact act x .partialTopicSync _ rfl (fun _ => trivial)
    · exact act x .partialTopicSync _ rfl (fun _ => trivial)
  | startUser x =>
    simp only [LNet.step]; split
    · exact act x .partialUserSync _ rfl (fun _ => trivial)
    · exact act x .partialUserSync _ rfl (fun _ => trivial)
  | readDests i => simp only [LNet.step]; split <;> exact same _ rfl
  | lookup i => simp only [LNet.step]; split <;> exact same _ rfl
  | push i ok =>
    simp only [LNet.step] at h2 ⊢; split
    · rename_i x m ds d c' hi
      simp only [hi] at h2
      cases ok with
      | true => exact same _ rfl
      | false =>
        simp only [Bool.false_eq_true, if_false] at h2 ⊢
        refine act x (.removeBroker d) _ rfl (fun e => ?_)
        rintro rfl
        subst e
        exact gone _ rfl h2.2
    · exact same _ rfl
  | authenticated c' x y => simp only [LNet.step]; split <;> exact same _ rfl
  | register c' x y =>
    simp only [LNet.step] at h2 ⊢; split
    · rename_i hj
      rw [if_pos hj] at h2
      refine act x (.addBroker y c') _ rfl (fun e => ?_)
      rintro rfl
      subst e
      have hc : (n.act x (.addBroker y c')).conn x y = some c := h2.2
      have hc' : (n.act x (.addBroker y c')).conn x y = some c' := by
        unfold conn; rw [st_act_self]; simp [Conns.step, addBroker, getBrokerConnection]
      rw [hc'] at hc
      have : c' = c := Option.some.inj hc
      subst this
      have := (hI.reg _ _ _ h1.2).2
      rw [hj.2] at this; cases this
    · exact same _ rfl
  | fullTopic x y =>
    simp only [LNet.step]; split
    · split <;> exact same _ rfl
    · exact same _ rfl
  | fullUser x y =>
    simp only [LNet.step]; split
    · split <;> exact same _ rfl
    · exact same _ rfl
  | drop x y =>
    refine act x (.removeBroker y) _ rfl (fun e => ?_)
    rintro rfl
    subst e
    exact gone _ rfl h2.2
  | deliver c' x y =>
    simp only [LNet.step] at h2 ⊢; split
    · rename_i hc
      split
      · exact same _ rfl
      · exact act y (.applyUserSync _) _ rfl (fun _ => trivial)
      · rename_i m rest hq
        by_cases e : y = b ∧ x = h
        · obtain ⟨rfl, rfl⟩ := e
          have : c' = c := by rw [h1.2] at hc; exact (Option.some.inj hc).symm
          subst this
          obtain ⟨hp, hv⟩ := hI.qOld x y c' h1.1 (.topic m) (by rw [hq]; simp) m rfl
          obtain ⟨h3, e, h4, h5⟩ := ht
          have hne : x ≠ y := joins_ne hI (hI.reg _ _ _ h1.1).1
          obtain ⟨r1, r2⟩ := rinv_apply (n.st y) x (n.S x) m (hI.view x y c' hP h1.2 (Or.inl h1.1)) hp hv
          obtain ⟨e', he', _⟩ := r1.view
          refine ⟨?_, e', ?_, r2 e e' h4 he' t _ h3 (Or.inl h5)⟩
          · show ((n.act y (.applyTopicSync x m)).st x).topicSync.map.get t = _
            rw [st_act_ne _ _ _ hne]; exact h3
          · show ((n.act y (.applyTopicSync x m)).st y).brokers.get x = _
            rw [st_act_self]; exact he'
        · refine act y (.applyTopicSync x m) _ rfl (fun e1 => ?_)
          rintro rfl
          exact e ⟨e1, rfl⟩
    · exact same _ rfl
  | strayUser c' x y =>
    simp only [LNet.step]; split
    · split
      · exact act y (.applyUserSync _) _ rfl (fun _ => trivial)
      · exact same _ rfl
    · exact same _ rfl
  | strayTopic c' x y =>
    simp only [LNet.step]; split
    · rename_i hj
      split
      · rename_i m rest hq
        refine act y (.applyTopicSync x m) _ rfl (fun e1 => ?_)
        rintro rfl
        subst e1
        exact hl ⟨c', rfl, hj.2.1, Or.inr h1.2⟩
      · exact same _ rfl
    · exact same _ rfl
  | restart x =>
    have hx : ∀ y z, (n.step (.restart x)).conn y z = some c → y ≠ x := by
      rintro y z hc rfl
      unfold conn at hc
      rw [show (n.step (.restart y)).st y = Conns.new y by simp [LNet.step]] at hc
      cases hc
    have hst : ∀ y, y ≠ x → (n.step (.restart x)).st y = n.st y := fun y hy => if_neg hy
    unfold Told S
    rw [hst h (hx _ _ h2.1), hst b (hx _ _ h2.2)]
    exact ht

/-- What `b` knows when everything has arrived. -/
theorem told_settled {P : Nat → B → B → Prop} {n : LNet U B T} {k : Nat} (hI : Inv P n k) {c : Nat} {b b' : B}
    (hP : P c b b') (hlink : Linked n c b b')
    (hset : TopicsSettled n c b b') (t : T) (hloc : (n.st b).LocalTopic t) : ∃ w, Told n b b' t w := by
  obtain ⟨h1, h2⟩ := hlink
  obtain ⟨hidx, e, he, hpast, hval, hbwd⟩ := hI.view b b' c hP h2 (Or.inl h1)
  have hprev := (hI.own b).prev t
  obtain ⟨_, _, _, _, _, h6⟩ := partialTopicSync_spec (n.st b) (hI.own b).index (hI.own b).clean
  rw [hset.announced] at h6
  have hsub := hprev.2 ((h6 t).2 hloc)
  simp only [VMap.get] at hsub
  cases hs : (n.S b).map.get t with
  | none => rw [show (n.st b).topicSync.map.get t = none from hs] at hsub; cases hsub
  | some x =>
    rw [show (n.st b).topicSync.map.get t = some x from hs] at hsub
    have hx : x = ⟨x.version, some .subscribed⟩ := by
      cases x; simp only [Option.bind_some] at hsub; simp [hsub]
    refine ⟨x.version, by rw [hs, ← hx], e, he, ?_⟩
    rw [← hx]
    rcases hI.cov b b' c hP h1 (Or.inl h2) t x hs with ⟨_, e', h3, h4⟩ | h3 | ⟨τ, h3, h4, ⟨m, h5, _⟩, h6⟩ |
      ⟨m, h3, m', h4, _⟩
    · rw [he] at h3; cases h3; exact h4
    · exact absurd h3 hset.initial
    · exfalso
      obtain ⟨h7, ds, h8, h9⟩ := hset.sent τ h3 h4 (by rw [h5]; trivial)
      exact h6.elim h7 (fun h10 => h9 (h10 ds h8))
    · exact absurd (by rw [h4]; trivial) (hset.arrived m h3)

/-- A broker that knows forwards. -/
theorem told_interested {P : Nat → B → B → Prop} {n : LNet U B T} {k : Nat} (hI : Inv P n k) {h b : B} {t : T}
    {w c : Nat} (hP : P c h b) (ht : Told n h b t w)
    (hlink : Linked n c h b) : (n.st b).bcBrokers.Bwd h t := by
  obtain ⟨_, e, he, _, _, hbwd⟩ := hI.view h b c hP hlink.2 (Or.inl hlink.1)
  obtain ⟨_, e', he', h3⟩ := ht
  rw [he] at he'; cases he'
  exact (hbwd t).2 (by simp only [VMap.get]; rw [h3]; rfl)

end

variable {B σ : Type} [DecidableEq B] [LT B] [DecidableLT B]

/-! ## Specification -/

/-- `u` is connected to `h` and to no other broker. -/
def OnlyAt (m : LNet Bytes B Topic) (h : B) (u : Bytes) : Prop := LAt m h u ∧ ∀ x, x ≠ h → ¬ LAt m x u

/-- The publication of message `k`. -/
def publishesC (k : Nat) : CLabel B → Bool
  | .msg l => publishes k l
  | _ => false

/-- What happens to messages meanwhile: `a`, at `b0`, publishes nothing for which a broker ends their connection, and
brokers send each other nothing of that kind (`Passes`); what brokers send each other is not message `k`; no send to
`u` and no send to `h` fails. What other users publish is arbitrary, and sends to other users and to other brokers may
fail. -/
def Harmless (cfg : Cfg B σ) (k : Nat) (u : Bytes) (h b0 : B) (a : Bytes) (n : Net B Nat σ) : Label B Nat → Prop
  | .publish b u' _ raw => b = b0 → u' = a → Passes cfg Nat (.user a) raw
  | .originate _ b' id raw => id ≠ k ∧ Passes cfg Nat (.broker b') raw
  | .take _ _ => True
  | .send b frm ok => ok = true ∨
      ∀ t, n.pend.find? (Todo.for' b frm) = some t → t.dest ≠ .user u ∧ t.dest ≠ .broker h
  | .setTable _ _ => False

/-- `a` stays connected to `b0` on one connection; unless `b0` is `h`, both keep one connection registered for each
other. -/
def Kept (m : LNet Bytes B Topic) (h b0 : B) (a : Bytes) (v c : Nat) : Prop :=
  (m.st b0).getUserConnection a = some v ∧ (b0 ≠ h → Linked m c h b0)

/-! ## Proof -/

theorem run_cons' (cfg : Cfg B σ) (s : Churn B σ) (l : CLabel B) (ls : List (CLabel B)) :
    s.run cfg (l :: ls) = (s.step cfg l).run cfg ls := rfl

/-- Nothing that `b0` reads from `a`, or `h` from `b0`, may be lost. -/
def Firm (s : Churn B σ) (h b0 : B) (a : Bytes) : Prop :=
  s.loose b0 (.user a) = false ∧ (b0 ≠ h → s.loose h (.broker b0) = false)

theorem heard_kept {m : LNet Bytes B Topic} {h b0 : B} {a : Bytes} {v c : Nat} (hk : Kept m h b0 a v c) :
    Churn.heard m b0 (.user a) = some v ∧ (b0 ≠ h → Churn.heard m h (.broker b0) = some c) := by
  refine ⟨hk.1, fun e => ?_⟩
  obtain ⟨h1, h2⟩ := hk.2 e
  simp [Churn.heard, h1, h2]

theorem loose_lose (cfg : Cfg B σ) (s : Churn B σ) (i : Nat) :
    (s.step cfg (.lose i)).loose = s.loose ∧ (s.step cfg (.loseSend i)).loose = s.loose ∧
    (s.step cfg (.lose i)).mesh = s.mesh ∧ (s.step cfg (.loseSend i)).mesh = s.mesh := by
  refine ⟨?_, ?_, ?_, ?_⟩
  all_goals
    simp only [Churn.step]
    split
    · split <;> rfl
    · rfl

theorem firm_run (cfg : Cfg B σ) {h b0 : B} {a : Bytes} {v c : Nat} (js : List (CLabel B)) (s : Churn B σ)
    (hf : Firm s h b0 a) (hall : ∀ p, p <+: js → Kept (s.run cfg p).mesh h b0 a v c) : Firm (s.run cfg js) h b0 a := by
  induction js generalizing s with
  | nil => exact hf
  | cons l js ih =>
    rw [run_cons']
    refine ih _ ?_ (fun p hp => hall (l :: p) (List.cons_prefix_cons.2 ⟨rfl, hp⟩))
    cases l with
    | msg l => exact hf
    | lose i => unfold Firm; rw [(loose_lose cfg s i).1]; exact hf
    | loseSend i => unfold Firm; rw [(loose_lose cfg s i).2.1]; exact hf
    | mesh l =>
      obtain ⟨h1, h2⟩ := heard_kept (hall [] List.nil_prefix)
      obtain ⟨h3, h4⟩ := heard_kept (hall [.mesh l] (by simp))
      have e1 : (s.run cfg []).mesh = s.mesh := rfl
      have e2 : (s.run cfg [.mesh l]).mesh = s.mesh.step l := rfl
      rw [e1] at h1 h2
      rw [e2] at h3 h4
      refine ⟨?_, fun e => ?_⟩
      · simp [Churn.step, hf.1, h1, h3]
      · simp [Churn.step, hf.2 e, h2 e, h4 e]

theorem firm_start (m : LNet Bytes B Topic) (hook : B → Dest B → σ) {h b0 : B} {a : Bytes} {v c : Nat}
    (hk : Kept m h b0 a v c) : Firm (Churn.ofMesh m hook) h b0 a := by
  obtain ⟨h1, h2⟩ := heard_kept hk
  exact ⟨by simp [Churn.ofMesh, h1], fun e => by simp [Churn.ofMesh, h2 e]⟩

theorem way_lose (cfg : Cfg B σ) {u : Bytes} {h : B} {k : Nat} {b0 : B} {a raw : Bytes} (s : Churn B σ)
    (hU : Underway cfg h k b0 a raw s.net) (hf : Firm s h b0 a) (i : Nat) :
    (way u h k (s.step cfg (.lose i)).net = way u h k s.net ∧ Underway cfg h k b0 a raw (s.step cfg (.lose i)).net ∧
      (s.step cfg (.lose i)).net.tab = s.net.tab) ∧
    (way u h k (s.step cfg (.loseSend i)).net = way u h k s.net ∧
      Underway cfg h k b0 a raw (s.step cfg (.loseSend i)).net ∧ (s.step cfg (.loseSend i)).net.tab = s.net.tab) := by
  have bad : ∀ b frm, s.loose b frm = true → ¬ ((b = b0 ∧ frm = .user a) ∨ (b0 ≠ h ∧ b = h ∧ frm = .broker b0)) := by
    rintro b frm hl (⟨rfl, rfl⟩ | ⟨h1, rfl, rfl⟩)
    · rw [hf.1] at hl; cases hl
    · rw [hf.2 h1] at hl; cases hl
  constructor
  · simp only [Churn.step]
    split
    · rename_i x hx
      split
      · rename_i hl
        have hmem := List.mem_of_getElem? hx
        have h0 : wayI h k x = 0 := Classical.byContradiction fun e => bad _ _ hl (way_wire cfg hU hmem e)
        refine ⟨?_, underway_sub hU (fun j hj => List.mem_of_mem_eraseIdx hj) (fun _ h => h) rfl, rfl⟩
        have := sum_eraseIdx (wayI h k) s.net.wire i x hx h0
        simp only [way, copiesReceived, this]
      · exact ⟨rfl, hU, rfl⟩
    · exact ⟨rfl, hU, rfl⟩
  · simp only [Churn.step]
    split
    · rename_i x hx
      split
      · rename_i hl
        have hmem := List.mem_of_getElem? hx
        have h0 : wayT u h k x = 0 := Classical.byContradiction fun e => bad _ _ hl (way_pend cfg hU hmem e)
        refine ⟨?_, underway_sub hU (fun _ h => h) (fun j hj => List.mem_of_mem_eraseIdx hj) rfl, rfl⟩
        have := sum_eraseIdx (wayT u h k) s.net.pend i x hx h0
        simp only [way, copiesReceived, this]
      · exact ⟨rfl, hU, rfl⟩
    · exact ⟨rfl, hU, rfl⟩

theorem way_run (cfg : Cfg B σ) (hT : Transparent cfg) {u : Bytes} {h : B} {k : Nat} {b0 : B} {a raw : Bytes}
    (hg : Good cfg raw) (js : List (CLabel B)) (s : Churn B σ) (htab : s.net.tab = s.mesh.st)
    (hU : Underway cfg h k b0 a raw s.net)
    (hreach : ∀ p, p <+: js → Reaches cfg (s.run cfg p).mesh.st u h b0 raw)
    (hfirm : ∀ p, p <+: js → Firm (s.run cfg p) h b0 a)
    (hfine : ∀ p l, p ++ [.msg l] <+: js → Fine cfg u h k b0 a raw (s.run cfg p).net l) :
    way u h k (s.run cfg js).net = way u h k s.net + js.countP (publishesC k) := by
  induction js generalizing s with
  | nil => simp [Churn.run]
  | cons l js ih =>
    have hr' : ∀ p, p <+: js → Reaches cfg ((s.step cfg l).run cfg p).mesh.st u h b0 raw :=
      fun p hp => hreach (l :: p) (List.cons_prefix_cons.2 ⟨rfl, hp⟩)
    have hf' : ∀ p l', p ++ [.msg l'] <+: js → Fine cfg u h k b0 a raw ((s.step cfg l).run cfg p).net l' :=
      fun p l' hp => hfine (l :: p) l' (List.cons_prefix_cons.2 ⟨rfl, hp⟩)
    have hm' : ∀ p, p <+: js → Firm ((s.step cfg l).run cfg p) h b0 a :=
      fun p hp => hfirm (l :: p) (List.cons_prefix_cons.2 ⟨rfl, hp⟩)
    rw [run_cons', List.countP_cons]
    cases l with
    | lose i =>
      obtain ⟨⟨h1, h2, h3⟩, _⟩ := way_lose (u := u) cfg s hU (hfirm [] List.nil_prefix) i
      rw [ih (s.step cfg (.lose i)) (by rw [h3, htab, (loose_lose cfg s i).2.2.1]) h2 hr' hm' hf', h1]
      simp [publishesC]
    | loseSend i =>
      obtain ⟨_, ⟨h1, h2, h3⟩⟩ := way_lose (u := u) cfg s hU (hfirm [] List.nil_prefix) i
      rw [ih (s.step cfg (.loseSend i)) (by rw [h3, htab, (loose_lose cfg s i).2.2.2]) h2 hr' hm' hf', h1]
      simp [publishesC]
    | mesh l =>
      rw [ih (s.step cfg (.mesh l)) rfl (underway_sub hU (fun _ h => h) (fun _ h => h) rfl) hr' hm' hf']
      simp [publishesC, Churn.step, way, copiesReceived]
    | msg l =>
      have hl : Fine cfg u h k b0 a raw s.net l := hfine [] l (by simp)
      have hr : Reaches cfg s.net.tab u h b0 raw := by rw [htab]; exact hreach [] (List.nil_prefix)
      have hU' := underway_step cfg hT hU hr l hl
      rw [ih (s.step cfg (.msg l)) rfl (underway_sub hU' (fun _ h => h) (fun _ h => h) rfl) hr' hm' hf']
      have := way_step cfg hT hg hU hr l hl
      have h2 : way u h k (s.step cfg (.msg l)).net = way u h k (s.net.step cfg l) := rfl
      rw [h2, this]
      show _ = _ + (_ + if publishes k l = true then 1 else 0)
      cases publishes k l
      · simp
      · simp; omega

theorem mem_of_prefix {A : Type} {p js : List A} {l : A} (h : p ++ [l] <+: js) : l ∈ js := h.subset (by simp)

theorem underway_start (cfg : Cfg B σ) (h : B) (k : Nat) (b0 : B) (a raw : Bytes) (m : LNet Bytes B Topic)
    (hook : B → Dest B → σ) : Underway cfg h k b0 a raw (Churn.ofMesh m hook).net :=
  ⟨hopInv_start _ _, by simp [Churn.ofMesh, Net.start], by simp [Churn.ofMesh, Net.start], by simp [Churn.ofMesh, Net.start],
    by simp [Churn.ofMesh, Net.start], by simp [Churn.ofMesh, Net.start], by simp [Churn.ofMesh, Net.start],
    by simp [Churn.ofMesh, Net.start]⟩

theorem fine_of (cfg : Cfg B σ) {u : Bytes} {h : B} {k : Nat} {b0 : B} {a raw : Bytes} {js : List (CLabel B)}
    (honce : js.filter (publishesC k) = [.msg (.publish b0 a k raw)]) {n : Net B Nat σ} {l : Label B Nat}
    (hmem : .msg l ∈ js) (hl : Harmless cfg k u h b0 a n l) : Fine cfg u h k b0 a raw n l := by
  cases l with
  | publish b u' id raw' =>
    refine ⟨fun hk => ?_, hl⟩
    have : CLabel.msg (Label.publish b u' id raw') ∈ js.filter (publishesC k) :=
      List.mem_filter.2 ⟨hmem, by simp [publishesC, publishes, hk]⟩
    rw [honce] at this
    simp only [List.mem_singleton, CLabel.msg.injEq, Label.publish.injEq] at this
    exact ⟨this.1, this.2.1, this.2.2.2⟩
  | _ => exact hl

/-- Received at most once, and exactly once when everything has been delivered, if the way is open all the time. -/
theorem once_of_reaches (cfg : Cfg B σ) (hT : Transparent cfg) {u : Bytes} {h : B} {k : Nat} {b0 : B} {a raw : Bytes}
    (hg : Good cfg raw) (m : LNet Bytes B Topic) (hook : B → Dest B → σ) (js : List (CLabel B))
    (honce : js.filter (publishesC k) = [.msg (.publish b0 a k raw)])
    (hharm : ∀ p l, p ++ [.msg l] <+: js → Harmless cfg k u h b0 a ((Churn.ofMesh m hook).run cfg p).net l)
    (hreach : ∀ p, p <+: js → Reaches cfg ((Churn.ofMesh m hook).run cfg p).mesh.st u h b0 raw) (v c : Nat)
    (hkept : ∀ p, p <+: js → Kept ((Churn.ofMesh m hook).run cfg p).mesh h b0 a v c) :
    copiesReceived ((Churn.ofMesh m hook).run cfg js).net u k ≤ 1 ∧
    (Quiescent ((Churn.ofMesh m hook).run cfg js).net →
      copiesReceived ((Churn.ofMesh m hook).run cfg js).net u k = 1) := by
  have hw := way_run cfg hT hg js (Churn.ofMesh m hook) rfl (underway_start cfg h k b0 a raw m hook) hreach
    (fun p hp => firm_run cfg p _ (firm_start m hook (hkept [] List.nil_prefix)) (fun q hq => hkept q (hq.trans hp)))
    (fun p l hp => fine_of cfg honce (mem_of_prefix hp) (hharm p l hp))
  have h0 : way u h k (Churn.ofMesh m hook : Churn B σ).net = 0 := by simp [way, Churn.ofMesh, Net.start, copiesReceived]
  have h1 : js.countP (publishesC k) = 1 := by rw [List.countP_eq_length_filter, honce]; rfl
  rw [h0, h1] at hw
  generalize (Churn.ofMesh m hook).run cfg js = s at *
  unfold way at hw
  refine ⟨by omega, fun hq => ?_⟩
  rw [hq.1, hq.2] at hw
  simpa using hw

/-- The mesh goes on as without messages. -/
def meshLabels : List (CLabel B) → List (LLabel Bytes B Topic)
  | [] => []
  | .mesh l :: js => l :: meshLabels js
  | _ :: js => meshLabels js

theorem mesh_run (cfg : Cfg B σ) (js : List (CLabel B)) (s : Churn B σ) :
    (s.run cfg js).mesh = s.mesh.run (meshLabels js) := by
  induction js generalizing s with
  | nil => rfl
  | cons l js ih =>
    rw [run_cons', ih]
    cases l with
    | lose i => rw [(loose_lose cfg s i).2.2.1]; rfl
    | loseSend i => rw [(loose_lose cfg s i).2.2.2]; rfl
    | _ => rfl

theorem meshLabels_length (js : List (CLabel B)) : (meshLabels js).length ≤ js.length := by
  induction js with
  | nil => simp [meshLabels]
  | cons l js ih => cases l <;> simp [meshLabels] <;> omega

theorem mem_meshLabels {js : List (CLabel B)} {l : LLabel Bytes B Topic} (h : l ∈ meshLabels js) : .mesh l ∈ js := by
  induction js with
  | nil => simp [meshLabels] at h
  | cons x js ih =>
    cases x with
    | mesh y =>
      simp only [meshLabels, List.mem_cons] at h
      rcases h with rfl | h
      · simp
      · simp [ih h]
    | _ => simp only [meshLabels] at h; simp [ih h]

theorem told_run (cfg : Cfg B σ) {h b : B} {t : Topic} {w c : Nat} (js : List (CLabel B)) (s : Churn B σ) (k : Nat)
    (hI : Inv (fun c' x y => c' = c ∧ x = h ∧ y = b) s.mesh k) (hk : k + js.length < 2 ^ 64)
    (hmis : NeverMisled c h b s.mesh (meshLabels js))
    (hall : ∀ p, p <+: js → Linked (s.run cfg p).mesh c h b ∧ ((s.run cfg p).mesh.st h).LocalTopic t)
    (ht : Told s.mesh h b t w) : Told (s.run cfg js).mesh h b t w := by
  induction js generalizing s k with
  | nil => exact ht
  | cons l js ih =>
    simp only [List.length_cons] at hk
    have hall' : ∀ p, p <+: js → Linked ((s.step cfg l).run cfg p).mesh c h b ∧
        (((s.step cfg l).run cfg p).mesh.st h).LocalTopic t :=
      fun p hp => hall (l :: p) (List.cons_prefix_cons.2 ⟨rfl, hp⟩)
    rw [run_cons']
    cases l with
    | msg l => exact ih _ k hI (by omega) hmis hall' ht
    | lose i =>
      have hm := (loose_lose cfg s i).2.2.1
      exact ih _ k (by rw [hm]; exact hI) (by omega) (by rw [hm]; exact hmis) hall' (by rw [hm]; exact ht)
    | loseSend i =>
      have hm := (loose_lose cfg s i).2.2.2
      exact ih _ k (by rw [hm]; exact hI) (by omega) (by rw [hm]; exact hmis) hall' (by rw [hm]; exact ht)
    | mesh l =>
      have hs : ¬ Misled c h b s.mesh l := hmis [] l ⟨meshLabels js, rfl⟩
      have h0 := hall [] List.nil_prefix
      have hI' := inv_never hI [l] (fun p l' hp => hmis p l' (hp.trans ⟨meshLabels js, rfl⟩))
        (by rw [List.length_singleton]; omega)
      refine ih _ (k + 1) hI' (by omega)
        (fun p l' hp => hmis (l :: p) l' (by
          obtain ⟨r, hr⟩ := hp
          exact ⟨r, by rw [show meshLabels (.mesh l :: js) = l :: meshLabels js from rfl, ← hr]; rfl⟩)) hall' ?_
      exact told_step hI ⟨rfl, rfl, rfl⟩ ht h0.2 l hs h0.1 (hall' [] List.nil_prefix).1

theorem meshLabels_append (p q : List (CLabel B)) : meshLabels (p ++ q) = meshLabels p ++ meshLabels q := by
  induction p with
  | nil => rfl
  | cons l p ih => cases l <;> simp [meshLabels, ih]

theorem meshLabels_prefix {p js : List (CLabel B)} (h : p <+: js) : meshLabels p <+: meshLabels js := by
  obtain ⟨r, rfl⟩ := h
  rw [meshLabels_append]; exact List.prefix_append ..

/-- The way of a broadcast stays open, under the hypotheses of `C115_broadcast`. -/
theorem open_broadcast (cfg : Cfg B σ) (l1 : List (LLabel Bytes B Topic)) (js : List (CLabel B))
    (hlen : l1.length + js.length < 2 ^ 64)
    (hook : B → Dest B → σ) (u a : Bytes) (h b0 : B) (t : Topic) (v c : Nat)
    (hmis : b0 ≠ h → NeverMisled c h b0 LNet.start (l1 ++ meshLabels js))
    (hset : b0 ≠ h → TopicsSettled ((LNet.start : LNet Bytes B Topic).run l1) c h b0)
    (hall : ∀ p, p <+: js →
      let m := ((Churn.ofMesh ((LNet.start : LNet Bytes B Topic).run l1) hook).run cfg p).mesh
      OnlyAt m h u ∧ u ∈ ((m.st h).getInterestedByTopic [t] true).2 ∧ Kept m h b0 a v c)
    (raw : Bytes) (ts : List Topic) (payload : Bytes)
    (hd : cfg.decode raw = some (.broadcast ts payload)) (hts : t ∈ ts) (hv : cfg.valid t = true) :
    ∀ p, p <+: js → Reaches cfg
      ((Churn.ofMesh ((LNet.start : LNet Bytes B Topic).run l1) hook).run cfg p).mesh.st u h b0 raw := by
  have hI : b0 ≠ h → _ := fun hne => inv_never (LNet.inv_start (U := Bytes) (B := B) (T := Topic)) l1
    (fun p l hp => hmis hne p l (hp.trans (List.prefix_append ..))) (by omega)
  have hmis' : b0 ≠ h → NeverMisled c h b0 ((LNet.start : LNet Bytes B Topic).run l1) (meshLabels js) := by
    intro hne p l hp
    rw [← Linking.run_append]
    refine hmis hne (l1 ++ p) l ?_
    obtain ⟨r, hr⟩ := hp
    exact ⟨r, by rw [← hr]; simp⟩
  have hIself : ∀ p, p <+: js → Inv (fun _ _ _ => False)
      ((Churn.ofMesh ((LNet.start : LNet Bytes B Topic).run l1) hook).run cfg p).mesh
      (0 + (l1 ++ meshLabels p).length) := by
    intro p hp
    rw [mesh_run]
    show Inv _ (((LNet.start : LNet Bytes B Topic).run l1).run (meshLabels p)) _
    rw [← Linking.run_append]
    refine inv_any _ ?_
    have h1 := meshLabels_length p
    have h2 := hp.length_le
    rw [List.length_append]; omega
  generalize (LNet.start : LNet Bytes B Topic).run l1 = m0 at *
  have hsub : ∀ p, p <+: js → (((Churn.ofMesh m0 hook).run cfg p).mesh.st h).bcUsers.Bwd u t := by
    intro p hp
    obtain ⟨t', h1, h2⟩ := ((mem_interested _ [t] true).1 u).1 (hall p hp).2.1
    simp only [List.mem_singleton] at h1; subst h1; exact h2
  have hIp : b0 ≠ h → ∀ p, p <+: js → Inv (fun c' x y => c' = c ∧ x = h ∧ y = b0)
      ((Churn.ofMesh m0 hook).run cfg p).mesh (0 + l1.length + (meshLabels p).length) := by
    intro hne p hp
    rw [mesh_run]
    refine inv_never (hI hne) (meshLabels p) (fun q l hq => hmis' hne q l (hq.trans (meshLabels_prefix hp))) ?_
    have h1 := meshLabels_length p
    have h2 := hp.length_le
    omega
  intro p hp
  obtain ⟨⟨hat, honly⟩, _, _, hlink⟩ := hall p hp
  have hIn := hIself p hp
  have hIn' : b0 ≠ h → _ := fun hne => hIp hne p hp
  have htold : b0 ≠ h → ∃ w, Told ((Churn.ofMesh m0 hook).run cfg p).mesh h b0 t w := by
    intro hne
    obtain ⟨w, hw⟩ := told_settled (hI hne) ⟨rfl, rfl, rfl⟩ ((hall [] List.nil_prefix).2.2.2 hne) (hset hne) t ⟨u, hsub [] List.nil_prefix⟩
    refine ⟨w, told_run (c := c) cfg p (Churn.ofMesh m0 hook) (0 + l1.length) (hI hne) ?_ ?_ ?_ hw⟩
    · have := hp.length_le; omega
    · exact fun q l hq => hmis' hne q l (hq.trans (meshLabels_prefix hp))
    · exact fun q hq => ⟨(hall q (hq.trans hp)).2.2.2 hne, u, hsub q (hq.trans hp)⟩
  have hs := hsub p hp
  generalize ((Churn.ofMesh m0 hook).run cfg p).mesh = m at *
  refine ⟨hat, ?_, ?_, ?_, ?_, ?_⟩
  · intro x hx
    cases hc : (m.st x).getUserConnection u with
    | none => rfl
    | some v => exact absurd (show LAt m x u by unfold LAt; rw [hc]; rfl) (honly x hx)
  · cases hc : (m.st h).getBrokerConnection h with
    | none => rfl
    | some v => exact absurd rfl (joins_ne hIn (hIn.reg h h v hc).1)
  · intro hne
    have := (hlink hne).2
    unfold conn at this; rw [this]; rfl
  · intro a'
    simp only [dests, hd]
    split
    · rename_i e
      subst e
      rw [user_mem_broadcastDests]
      exact ⟨t, (mem_prune _ _ _).2 ⟨hts, hv⟩, (RMap.mem_getKeysByValue _ _ _).2 hs⟩
    · rename_i e
      obtain ⟨w, hw⟩ := htold e
      rw [broker_mem_broadcastDests]
      exact ⟨rfl, t, (mem_prune _ _ _).2 ⟨hts, hv⟩,
        (RMap.mem_getKeysByValue _ _ _).2 (told_interested (hIn' e) ⟨rfl, rfl, rfl⟩ hw (hlink e))⟩
  · intro b'
    simp only [dests, hd]
    rw [user_mem_broadcastDests]
    exact ⟨t, hts, (RMap.mem_getKeysByValue _ _ _).2 hs⟩

/-- **C115, broadcasts.** Any history `l1` of users, connections between brokers and syncs. Then `u` is connected to
broker `h` and to no other, and subscribed to `t`, the publisher `a` is connected to broker `b0`, and unless that is
`h`, `b0` and `h` have the same connection registered for each other and the topics of `h` have arrived at `b0`. All
of this stays so (except that the topics of `h` may change again), while anything else happens: other users come, go,
move and change their topics, `u` changes other topics, other connections between brokers come and go, brokers are
restarted, what is under way on such connections is lost or not, syncs and messages of all kinds are under way
(`Harmless`). A broadcast that `a` publishes meanwhile on
topics among which is `t` is received by `u` at most once at any time, and exactly once when nothing is under way any
more. (As far as the connection between `b0` and `h` is concerned, no topic sync of `h` is handled out of place by
`b0`: `NeverMisled`, as in C112. Fewer than `2^64` steps.) -/
theorem C115_broadcast (cfg : Cfg B σ) (hT : Transparent cfg) (l1 : List (LLabel Bytes B Topic)) (js : List (CLabel B))
    (hlen : l1.length + js.length < 2 ^ 64)
    (hook : B → Dest B → σ) (u a : Bytes) (h b0 : B) (t : Topic) (v c : Nat)
    (hmis : b0 ≠ h → NeverMisled c h b0 LNet.start (l1 ++ meshLabels js))
    (hset : b0 ≠ h → TopicsSettled ((LNet.start : LNet Bytes B Topic).run l1) c h b0)
    (hall : ∀ p, p <+: js →
      let m := ((Churn.ofMesh ((LNet.start : LNet Bytes B Topic).run l1) hook).run cfg p).mesh
      OnlyAt m h u ∧ u ∈ ((m.st h).getInterestedByTopic [t] true).2 ∧ Kept m h b0 a v c)
    (k : Nat) (raw : Bytes) (ts : List Topic) (payload : Bytes)
    (hd : cfg.decode raw = some (.broadcast ts payload)) (hts : t ∈ ts) (hv : cfg.valid t = true)
    (honce : js.filter (publishesC k) = [.msg (.publish b0 a k raw)])
    (hharm : ∀ p l, p ++ [.msg l] <+: js → Harmless cfg k u h b0 a
      ((Churn.ofMesh ((LNet.start : LNet Bytes B Topic).run l1) hook).run cfg p).net l) :
    let n := ((Churn.ofMesh ((LNet.start : LNet Bytes B Topic).run l1) hook).run cfg js).net
    copiesReceived n u k ≤ 1 ∧ (Quiescent n → copiesReceived n u k = 1) := by
  refine once_of_reaches cfg hT ?_ _ hook js honce hharm
    (open_broadcast cfg l1 js hlen hook u a h b0 t v c hmis hset hall raw ts payload hd hts hv) v c
    (fun p hp => (hall p hp).2.2)
  unfold Net.Good; rw [hd]; exact ⟨t, hts, hv⟩

/-! ## Examples -/

/-- Decision procedure for "at every prefix". -/
def everB {σ : Type} (cfg : Cfg B σ) (P : Churn B σ → Bool) (s : Churn B σ) : List (CLabel B) → Bool
  | [] => P s
  | l :: js => P s && everB cfg P (s.step cfg l) js

theorem everB_sound {σ : Type} (cfg : Cfg B σ) (P : Churn B σ → Bool) (js : List (CLabel B)) (s : Churn B σ)
    (h : everB cfg P s js = true) (p : List (CLabel B)) (hp : p <+: js) : P (s.run cfg p) = true := by
  induction js generalizing s p with
  | nil => rw [List.prefix_nil.1 hp]; exact h
  | cons l js ih =>
    simp only [everB, Bool.and_eq_true] at h
    cases p with
    | nil => exact h.1
    | cons x p =>
      obtain ⟨rfl, hp'⟩ := List.cons_prefix_cons.1 hp
      exact ih _ h.2 p hp'

/-- Decision procedure for `Harmless` (no broker originates a frame). -/
def harmlessB {σ : Type} (cfg : Cfg B σ) (u : Bytes) (h b0 : B) (a : Bytes) (n : Net B Nat σ) : Label B Nat → Bool
  | .publish b u' _ raw => b != b0 || u' != a ||
      (match cfg.decode raw with
       | some (.broadcast ts _) => ts.any cfg.valid
       | some (.direct _ _) => true
       | _ => false)
  | .originate .. => false
  | .take .. => true
  | .send b frm ok => ok ||
      (match n.pend.find? (Todo.for' b frm) with
       | some t => t.dest != .user u && t.dest != .broker h
       | none => true)
  | .setTable .. => false

def harmlessAll {σ : Type} (cfg : Cfg B σ) (u : Bytes) (h b0 : B) (a : Bytes) (s : Churn B σ) : List (CLabel B) → Bool
  | [] => true
  | .msg l :: js => harmlessB cfg u h b0 a s.net l && harmlessAll cfg u h b0 a (s.step cfg (.msg l)) js
  | l :: js => harmlessAll cfg u h b0 a (s.step cfg l) js

theorem harmlessB_sound {σ : Type} (cfg : Cfg B σ) (hT : Transparent cfg) (k : Nat) (u : Bytes) (h b0 : B) (a : Bytes)
    (n : Net B Nat σ) (l : Label B Nat) (hh : harmlessB cfg u h b0 a n l = true) : Harmless cfg k u h b0 a n l := by
  cases l with
  | publish b u' id raw =>
    intro e1 e2
    simp only [harmlessB, Bool.or_eq_true, bne_iff_ne, ne_eq] at hh
    rcases hh with (hh | hh) | hh
    · exact absurd e1 hh
    · exact absurd e2 hh
    · apply passes_good cfg hT
      unfold Net.Good
      split at hh
      · rename_i hd; rw [hd]; obtain ⟨t, h1, h2⟩ := List.any_eq_true.1 hh; exact ⟨t, h1, h2⟩
      · rename_i hd; rw [hd]; trivial
      · cases hh
  | originate => cases hh
  | take => trivial
  | send b frm ok =>
    simp only [harmlessB, Bool.or_eq_true] at hh
    rcases hh with hh | hh
    · exact Or.inl hh
    · right
      intro t ht
      rw [ht] at hh
      simpa using hh
  | setTable => cases hh

theorem harmlessAll_sound {σ : Type} (cfg : Cfg B σ) (hT : Transparent cfg) (k : Nat) (u : Bytes) (h b0 : B) (a : Bytes)
    (js : List (CLabel B)) (s : Churn B σ) (hh : harmlessAll cfg u h b0 a s js = true) (p : List (CLabel B))
    (l : Label B Nat) (hp : p ++ [.msg l] <+: js) : Harmless cfg k u h b0 a (s.run cfg p).net l := by
  induction js generalizing s p with
  | nil => have := List.prefix_nil.1 hp; simp at this
  | cons x js ih =>
    cases p with
    | nil =>
      obtain ⟨rfl, _⟩ := List.cons_prefix_cons.1 hp
      simp only [harmlessAll, Bool.and_eq_true] at hh
      exact harmlessB_sound cfg hT k u h b0 a _ _ hh.1
    | cons y p =>
      obtain ⟨rfl, hp'⟩ := List.cons_prefix_cons.1 hp
      cases y with
      | msg m =>
        simp only [harmlessAll, Bool.and_eq_true] at hh
        exact ih _ hh.2 p hp'
      | _ => exact ih _ hh p hp'

/-- Three brokers; the first byte of a frame selects the kind of message. -/
def demoThree : Cfg (Fin 3) Nat where
  decode := Broker.demoCfg.decode
  decUserSync _ := none
  decTopicSync _ := none
  valid := Broker.demoCfg.valid
  userHook n m := (n, m, .process)
  brokerHook n m := (n, m, .process)

theorem demoThree_transparent : Transparent demoThree := fun _ _ => ⟨rfl, rfl⟩

/-- User `[3]` at broker 0; user `[2]` at broker 1, subscribed to topic 0; brokers 0 and 1, and 0 and 2, connect. -/
def churnBefore : List (LLabel Bytes (Fin 3) Topic) :=
  [.connect 1 [2] 12 [0], .connect 0 [3] 13 [1], .authenticated 0 0 1, .register 0 0 1, .register 0 1 0,
   .authenticated 1 2 0, .register 1 0 2, .register 1 2 0, .startTopic 1, .fullTopic 1 0, .readDests 0, .lookup 0,
   .push 0 true, .lookup 1, .push 1 true, .deliver 0 1 0, .deliver 0 1 0]

/-- While the broadcast of `[3]` on topic 0 is under way, user `[5]` connects to broker 2 and moves to broker 0, user
`[6]` sends a malformed frame and, before it is read, a broadcast, which is lost when they connect again, `[2]` asks for
topic 1 as well, which broker 1 announces, and broker 2 is restarted. -/
def churnDuring : List (CLabel (Fin 3)) :=
  [.msg (.publish 0 [3] 7 [4, 0]), .mesh (.connect 2 [5] 15 [0, 1]), .mesh (.connect 0 [6] 16 [0]),
   .msg (.publish 0 [6] 9 [4, 0]), .msg (.publish 0 [6] 8 [9]), .mesh (.subscribe 1 [2] [1]), .msg (.take 0 (.user [3])),
   .mesh (.connect 0 [5] 17 [0]), .mesh (.connect 0 [6] 18 [0]), .lose 0,
   .mesh (.startTopic 1), .mesh (.readDests 2), .mesh (.restart 2), .msg (.take 0 (.user [6])),
   .msg (.send 0 (.user [3]) true), .mesh (.lookup 2), .mesh (.push 2 true), .msg (.send 0 (.user [3]) true),
   .mesh (.deliver 0 1 0), .mesh (.disconnect 0 [6]), .msg (.take 1 (.broker 0)), .mesh (.unsubscribe 0 [5] [0]),
   .msg (.send 1 (.broker 0) true), .mesh (.startUser 0), .msg (.send 0 (.user [3]) false)]

def churnMesh : LNet Bytes (Fin 3) Topic := (LNet.start : LNet Bytes (Fin 3) Topic).run churnBefore

/-- The hypotheses of `C115_broadcast` hold, and the message arrives. -/
example : NeverMisled 0 1 0 LNet.start (churnBefore ++ meshLabels churnDuring) ∧ TopicsSettled churnMesh 0 1 0 ∧
    (∀ p, p <+: churnDuring →
      let m := ((Churn.ofMesh churnMesh (fun _ _ => 0)).run demoThree p).mesh
      OnlyAt m 1 [2] ∧ [2] ∈ ((m.st 1).getInterestedByTopic [0] true).2 ∧ Kept m 1 0 [3] 13 0) ∧
    demoThree.decode [4, 0] = some (.broadcast [0] []) ∧ demoThree.valid 0 = true ∧
    churnDuring.filter (publishesC 7) = [.msg (.publish 0 [3] 7 [4, 0])] ∧
    (∀ p l, p ++ [.msg l] <+: churnDuring → Harmless demoThree 7 [2] 1 0 [3]
      ((Churn.ofMesh churnMesh (fun _ _ => 0)).run demoThree p).net l) ∧
    Quiescent ((Churn.ofMesh churnMesh (fun _ _ => 0)).run demoThree churnDuring).net ∧
    copiesReceived ((Churn.ofMesh churnMesh (fun _ _ => 0)).run demoThree churnDuring).net [2] 7 = 1 := by
  refine ⟨neverB_sound _ _ _ _ _ (by decide +kernel), settledB_sound _ _ _ _ (by decide +kernel), ?_, rfl,
    rfl, ?_, ?_, ?_, by decide +kernel⟩
  · intro p hp
    have := everB_sound demoThree (fun s => decide (LAt s.mesh 1 [2]) && decide (∀ x : Fin 3, x ≠ 1 → ¬ LAt s.mesh x [2]) &&
      decide ([2] ∈ ((s.mesh.st 1).getInterestedByTopic [0] true).2) && decide ((s.mesh.st 0).getUserConnection [3] = some 13) &&
      decide (s.mesh.conn 1 0 = some 0 ∧ s.mesh.conn 0 1 = some 0)) churnDuring
      (Churn.ofMesh churnMesh (fun _ _ => 0)) (by decide +kernel) p hp
    simp only [Bool.and_eq_true, decide_eq_true_eq] at this
    exact ⟨⟨this.1.1.1.1, this.1.1.1.2⟩, this.1.1.2, this.1.2, fun _ => this.2⟩
  · simp [churnDuring, publishesC, publishes]
  · exact harmlessAll_sound demoThree demoThree_transparent 7 [2] 1 0 [3] churnDuring _ (by decide +kernel)
  · exact ⟨List.length_eq_zero_iff.1 (by decide +kernel), List.length_eq_zero_iff.1 (by decide +kernel)⟩

/-- The broadcast of `[6]` was lost: it is not among what broker 1 was sent. -/
example : copiesReceived ((Churn.ofMesh churnMesh (fun _ _ => 0)).run demoThree churnDuring).net [2] 9 = 0 ∧
    copiesReceived ((Churn.ofMesh churnMesh (fun _ _ => 0)).run demoThree
      (churnDuring.filter (fun l => match l with | .lose _ => false | _ => true))).net [2] 9 = 0 ∧
    ((Churn.ofMesh churnMesh (fun _ _ => 0)).run demoThree
      (churnDuring.filter (fun l => match l with | .lose _ => false | _ => true))).net.wire ≠ [] := by
  refine ⟨by decide +kernel, by decide +kernel, fun h => ?_⟩
  have := congrArg List.length h
  revert this
  decide +kernel

end Verif.Props.Churn
