import Verif.Model.Client

/-!
# Invariants of the client model
-/

namespace Verif.Client
open Verif

/-- A reconnection task that has not stored its connection yet. -/
def PC.preSet : PC → Bool
  | .rWait | .rLoop | .rSleep | .rConnecting | .rWantSubs | .rAuth | .rGot _ => true
  | _ => false

theorem PC.preSet_holdsP {p : PC} (h : p.preSet = true) : p.holdsP = true := by
  cases p <;> simp_all [PC.preSet, PC.holdsP]

/-- Locks and the permit are held exclusively; while a reconnection is on its way no connection is stored. -/
structure Inv (pc : Nat → PC) (n : Nat) (conn : Option Nat) : Prop where
  idle : ∀ t, n ≤ t → pc t = .idle
  uW : ∀ t u, (pc t).holdsW = true → (pc u).holdsW = true → t = u
  wr : ∀ t u, (pc t).holdsW = true → (pc u).holdsR = false
  uS : ∀ t u, (pc t).holdsS = true → (pc u).holdsS = true → t = u
  sa : ∀ t u, (pc t).holdsS = true → (pc u).readsS = false
  uP : ∀ t u, (pc t).holdsP = true → (pc u).holdsP = true → t = u
  none : ∀ t, (pc t).preSet = true → conn = none

abbrev St.Inv (s : St) : Prop := Client.Inv s.pc s.n s.conn

theorem inv_new (topics : List Topic) : (St.new topics).Inv := by
  refine ⟨fun _ _ => rfl, ?_, ?_, ?_, ?_, ?_, ?_⟩ <;> intros <;> simp_all [St.new, PC.holdsW, PC.holdsS, PC.holdsP, PC.preSet]

variable {s s' : St} {es : List Ev} {pc : Nat → PC} {n : Nat} {conn : Option Nat}

theorem Inv.lt (hi : Inv pc n conn) {t : Nat} (h : pc t ≠ .idle) : t < n := by
  rcases Nat.lt_or_ge t n with h1 | h1
  · exact h1
  · exact absurd (hi.idle t h1) h

theorem Inv.free (hi : s.Inv) {P : PC → Bool} (hP : P .idle = false) (h : s.Free P) (t : Nat) :
    P (s.pc t) = false := by
  rcases Nat.lt_or_ge t s.n with h1 | h1
  · exact h t h1
  · rw [hi.idle t h1, hP]

theorem upd_self {α : Type} (f : Nat → α) (t : Nat) (a : α) : upd f t a t = a := by simp [upd]
theorem upd_ne {α : Type} (f : Nat → α) {t u : Nat} (a : α) (h : u ≠ t) : upd f t a u = f u := by simp [upd, h]

/-- One task moves. -/
theorem Inv.move (hi : Inv pc n conn) {t : Nat} (ht : t < n) (p : PC)
    (hW : p.holdsW = true → (pc t).holdsW = true ∨ ((∀ u, (pc u).holdsW = false) ∧ ∀ u, (pc u).holdsR = false))
    (hR : p.holdsR = true → (pc t).holdsR = true ∨ (∀ u, (pc u).holdsW = false))
    (hS : p.holdsS = true → (pc t).holdsS = true ∨ ((∀ u, (pc u).holdsS = false) ∧ ∀ u, (pc u).readsS = false))
    (hA : p.readsS = true → (pc t).readsS = true ∨ (∀ u, (pc u).holdsS = false))
    (hP : p.holdsP = true → (pc t).holdsP = true ∨ (∀ u, (pc u).holdsP = false))
    (hC : p.preSet = true → conn = Option.none) (hWR : p.holdsW = true → p.holdsR = false)
    (hSA : p.holdsS = true → p.readsS = false) : Inv (upd pc t p) n conn := by
  have key : ∀ (P Q : PC → Bool), (∀ a b, P (pc a) = true → Q (pc b) = true → a = b) →
      (P p = true → P (pc t) = true ∨ ∀ u, Q (pc u) = false) →
      (Q p = true → Q (pc t) = true ∨ ∀ u, P (pc u) = false) →
      ∀ a b, P (upd pc t p a) = true → Q (upd pc t p b) = true → a = b := by
    intro P Q h h1 h2 a b ha hb
    by_cases ea : a = t
    · by_cases eb : b = t
      · rw [ea, eb]
      · subst ea
        rw [upd_self] at ha
        rw [upd_ne _ _ eb] at hb
        rcases h1 ha with h3 | h3
        · exact h _ _ h3 hb
        · rw [h3 b] at hb; cases hb
    · rw [upd_ne _ _ ea] at ha
      by_cases eb : b = t
      · subst eb
        rw [upd_self] at hb
        rcases h2 hb with h3 | h3
        · exact h _ _ ha h3
        · rw [h3 a] at ha; cases ha
      · rw [upd_ne _ _ eb] at hb
        exact h _ _ ha hb
  have excl : ∀ (P Q : PC → Bool), (∀ a b, P (pc a) = true → Q (pc b) = false) →
      (P p = true → Q p = false) →
      (P p = true → P (pc t) = true ∨ ∀ u, Q (pc u) = false) →
      (Q p = true → Q (pc t) = true ∨ ∀ u, P (pc u) = false) →
      ∀ a b, P (upd pc t p a) = true → Q (upd pc t p b) = false := by
    intro P Q h h0 h1 h2 a b ha
    by_cases ea : a = t
    · subst ea
      rw [upd_self] at ha
      by_cases eb : b = a
      · rw [eb, upd_self]; exact h0 ha
      · rw [upd_ne _ _ eb]
        rcases h1 ha with h3 | h3
        · exact h _ _ h3
        · exact h3 b
    · rw [upd_ne _ _ ea] at ha
      by_cases eb : b = t
      · subst eb
        rw [upd_self]
        cases hq : Q p with
        | false => rfl
        | true =>
          rcases h2 hq with h3 | h3
          · rw [h a b ha] at h3; cases h3
          · rw [h3 a] at ha; cases ha
      · rw [upd_ne _ _ eb]
        exact h _ _ ha
  refine ⟨?_, ?_, ?_, ?_, ?_, ?_, ?_⟩
  · intro u hu
    rw [upd_ne _ _ (by omega)]
    exact hi.idle u hu
  · exact key _ _ hi.uW (fun h => (hW h).imp id (·.1)) (fun h => (hW h).imp id (·.1))
  · exact excl _ _ hi.wr hWR (fun h => (hW h).imp id (·.2)) hR
  · exact key _ _ hi.uS (fun h => (hS h).imp id (·.1)) (fun h => (hS h).imp id (·.1))
  · exact excl _ _ hi.sa hSA (fun h => (hS h).imp id (·.2)) hA
  · exact key _ _ hi.uP hP hP
  · intro u hu
    by_cases e : u = t
    · subst e; rw [upd_self] at hu; exact hC hu
    · rw [upd_ne _ _ e] at hu; exact hi.none u hu

theorem Inv.grow (hi : Inv pc n conn) : Inv pc (n + 1) conn :=
  ⟨fun t h => hi.idle t (by omega), hi.uW, hi.wr, hi.uS, hi.sa, hi.uP, hi.none⟩

theorem Inv.clear (hi : Inv pc n conn) : Inv pc n Option.none :=
  ⟨hi.idle, hi.uW, hi.wr, hi.uS, hi.sa, hi.uP, fun _ _ => rfl⟩

/-- A task moves to a point where it holds no more than before. -/
theorem Inv.drop (hi : Inv pc n conn) {t : Nat} (ht : t < n) (p : PC)
    (hW : p.holdsW = true → (pc t).holdsW = true) (hR : p.holdsR = true → (pc t).holdsR = true)
    (hS : p.holdsS = true → (pc t).holdsS = true) (hA : p.readsS = true → (pc t).readsS = true)
    (hP : p.holdsP = true → (pc t).holdsP = true) (hC : p.preSet = true → (pc t).preSet = true) :
    Inv (upd pc t p) n conn := by
  refine hi.move ht p (fun h => Or.inl (hW h)) (fun h => Or.inl (hR h)) (fun h => Or.inl (hS h))
    (fun h => Or.inl (hA h)) (fun h => Or.inl (hP h)) (fun h => hi.none t (hC h)) ?_ ?_
  · intro h
    cases p <;> simp_all [PC.holdsW, PC.holdsR]
  · intro h
    cases p <;> simp_all [PC.holdsS, PC.readsS]

theorem giveUp_pc (s : St) (t : Nat) (w : Work) :
    (s.giveUp t w).1 = s.goto t .ensureWait ∨ (s.giveUp t w).1 = s.goto t .done := by
  cases w <;> simp [St.giveUp]

theorem Inv.giveUp (hi : s.Inv) {t : Nat} (ht : t < s.n) (w : Work) : (s.giveUp t w).1.Inv := by
  rcases giveUp_pc s t w with h | h <;> rw [h] <;>
    exact hi.drop ht _ (by simp [PC.holdsW]) (by simp [PC.holdsR]) (by simp [PC.holdsS])
      (by simp [PC.readsS]) (by simp [PC.holdsP]) (by simp [PC.preSet])

macro "small" h:ident : tactic => `(tactic| (first
  | (intro hh; simp [PC.holdsW, PC.holdsR, PC.holdsS, PC.readsS, PC.holdsP, PC.preSet] at hh; done)
  | (intro hh; simp_all [PC.holdsW, PC.holdsR, PC.holdsS, PC.readsS, PC.holdsP, PC.preSet, $h:ident]; done)))

theorem inv_step (hi : s.Inv) (h : Step s es s') : s'.Inv := by
  have lt : ∀ {t : Nat} {p : PC}, s.pc t = p → p ≠ .idle → t < s.n := fun h1 h2 => hi.lt (by rw [h1]; exact h2)
  cases h with
  | call op =>
    refine Inv.drop hi.grow (t := s.n) (by omega) (.new op) ?_ ?_ ?_ ?_ ?_ ?_ <;>
      simp [PC.holdsW, PC.holdsR, PC.holdsS, PC.readsS, PC.holdsP, PC.preSet]
  | sendNew t m h => exact hi.drop (lt h (by simp)) _ (by small h) (by small h) (by simp [PC.holdsS, Work.subs]) (by small h) (by small h) (by small h)
  | recvNew t h => exact hi.drop (lt h (by simp)) _ (by small h) (by small h) (by simp [PC.holdsS, Work.subs]) (by small h) (by small h) (by small h)
  | softNew t h => exact hi.drop (lt h (by simp)) _ (by small h) (by small h) (by simp [PC.holdsS, Work.subs]) (by small h) (by small h) (by small h)
  | ensureNew t h ho => exact hi.drop (lt h (by simp)) _ (by small h) (by small h) (by simp [PC.holdsS, Work.subs]) (by small h) (by small h) (by small h)
  | ensureErr t h ho => exact hi.drop (lt h (by simp)) _ (by small h) (by small h) (by small h) (by small h) (by small h) (by small h)
  | lockSubs t add ts h hw hr =>
    exact hi.move (lt h (by simp)) _ (by small h) (by small h)
      (fun _ => Or.inr ⟨hi.free rfl hw, hi.free rfl hr⟩) (by small h) (by small h) (by small h) (by small h)
      (fun _ => rfl)
  | read t w h hw =>
    exact hi.move (lt h (by simp)) _ (by small h) (fun _ => Or.inr (hi.free rfl hw))
      (fun hh => Or.inl (by rw [h]; exact hh)) (by small h) (by small h) (by small h) (by small h) (fun _ => rfl)
  | noRead t w h hw u hu hb => exact hi.giveUp (lt h (by simp)) w
  | found t w h c hc he =>
    exact hi.drop (lt h (by simp)) _ (by small h) (by small h) (fun hh => (by rw [h]; exact hh)) (by small h) (by small h) (by small h)
  | foundEnsure t h c hc => exact hi.drop (lt h (by simp)) _ (by small h) (by small h) (by small h) (by small h) (by small h) (by small h)
  | spawn t w h hn ho hp =>
    have ht := lt h (by simp)
    have h1 := hi.drop ht (.spawned w s.n) (by small h) (by small h) (fun hh => (by rw [h]; exact hh)) (by small h) (by small h) (by small h)
    refine h1.grow.move (t := s.n) (by omega) .rWait (by small h) (by small h) (by small h) (by small h) ?_
      (fun _ => hn) (by small h) (by small h)
    intro _
    right
    intro u
    by_cases e : u = t
    · rw [e, upd_self]; rfl
    · rw [upd_ne _ _ e]; exact hi.free rfl hp u
  | noSpawn t w h hn hb => exact hi.giveUp (lt h (by simp)) w
  | store t w r h => exact hi.giveUp (lt h (by simp)) w
  | useOk t w c h => exact hi.drop (lt h (by simp)) _ (by small h) (by small h) (by small h) (by small h) (by small h) (by small h)
  | useErr t w c h => exact hi.drop (lt h (by simp)) _ (by small h) (by small h) (fun hh => (by rw [h]; exact hh)) (by small h) (by small h) (by small h)
  | failBusy t w h hp => exact hi.drop (lt h (by simp)) _ (by small h) (by small h) (by small h) (by small h) (by small h) (by small h)
  | failFree t w h hp => exact hi.drop (lt h (by simp)) _ (by small h) (by small h) (fun hh => (by rw [h]; exact hh)) (by small h) (by small h) (by small h)
  | lockW t w h hw hr =>
    exact hi.move (lt h (by simp)) _ (fun _ => Or.inr ⟨hi.free rfl hw, hi.free rfl hr⟩) (by small h)
      (fun hh => Or.inl (by rw [h]; exact hh)) (by small h) (by small h) (by small h) (fun _ => rfl) (fun _ => rfl)
  | take t w h =>
    exact (hi.drop (lt h (by simp)) .done (by small h) (by small h) (by small h) (by small h) (by small h) (by small h)).clear
  | ensureAcq t h ho hp =>
    exact hi.move (lt h (by simp)) _ (by small h) (by small h) (by small h) (by small h)
      (fun _ => Or.inr (hi.free rfl hp)) (by small h) (by small h) (by small h)
  | ensureRel t h => exact hi.drop (lt h (by simp)) _ (by small h) (by small h) (by small h) (by small h) (by small h) (by small h)
  | ensureShut t h hc => exact hi.drop (lt h (by simp)) _ (by small h) (by small h) (by small h) (by small h) (by small h) (by small h)
  | closeGuard t h => exact hi.drop (lt h (by simp)) _ (by small h) (by small h) (by small h) (by small h) (by small h) (by small h)
  | closeAbort t h => exact hi.drop (lt h (by simp)) _ (by small h) (by small h) (by small h) (by small h) (by small h) (by small h)
  | closeLock t h hw hr =>
    exact hi.move (lt h (by simp)) _ (fun _ => Or.inr ⟨hi.free rfl hw, hi.free rfl hr⟩) (by small h)
      (by small h) (by small h) (by small h) (by small h) (fun _ => rfl) (fun _ => rfl)
  | closeTake t h =>
    exact (hi.drop (lt h (by simp)) .done (by small h) (by small h) (by small h) (by small h) (by small h) (by small h)).clear
  | rLock t h hw hr =>
    exact hi.move (lt h (by simp)) _ (fun _ => Or.inr ⟨hi.free rfl hw, hi.free rfl hr⟩) (by small h)
      (by small h) (by small h) (fun _ => Or.inl (by rw [h]; rfl)) (fun _ => hi.none t (by rw [h]; rfl)) (fun _ => rfl) (fun _ => rfl)
  | rClosed t h hc => exact hi.drop (lt h (by simp)) _ (by small h) (by small h) (by small h) (by small h) (by small h) (by small h)
  | rConnect t h ho => exact hi.drop (lt h (by simp)) _ (by small h) (by small h) (by small h) (by small h) (by small h) (by small h)
  | rMarshal t h => exact hi.drop (lt h (by simp)) _ (by small h) (by small h) (by small h) (by small h) (by small h) (by small h)
  | rFail t h =>
    rcases h with h | h | h <;>
      exact hi.drop (lt h (by simp)) _ (by small h) (by small h) (by small h) (by small h) (by small h) (by small h)
  | rSubs t h hw =>
    exact hi.move (lt h (by simp)) _ (fun _ => Or.inl (by rw [h]; rfl)) (by small h) (by small h)
      (fun _ => Or.inr (hi.free rfl hw)) (fun _ => Or.inl (by rw [h]; rfl)) (fun _ => hi.none t (by rw [h]; rfl))
      (fun _ => rfl) (by small h)
  | rAuthOk t h => exact hi.drop (lt h (by simp)) _ (by small h) (by small h) (by small h) (by small h) (by small h) (by small h)
  | rSet t c h =>
    have h1 := hi.drop (lt h (by simp)) .rSet (by small h) (by small h) (by small h) (by small h) (by small h) (by small h)
    refine ⟨h1.idle, h1.uW, h1.wr, h1.uS, h1.sa, h1.uP, ?_⟩
    intro u hu
    exfalso
    have e : u = t := h1.uP u t (PC.preSet_holdsP hu) (by show (upd s.pc t PC.rSet t).holdsP = true; rw [upd_self]; rfl)
    rw [e] at hu
    simp [St.goto, upd, PC.preSet] at hu
  | rPermit t h => exact hi.drop (lt h (by simp)) _ (by small h) (by small h) (by small h) (by small h) (by small h) (by small h)
  | rDone t h => exact hi.drop (lt h (by simp)) _ (by small h) (by small h) (by small h) (by small h) (by small h) (by small h)
  | rWake t h => exact hi.drop (lt h (by simp)) _ (by small h) (by small h) (by small h) (by small h) (by small h) (by small h)
  | rAbort t h ha =>
    exact hi.drop (hi.lt (by intro e; rw [e] at h; cases h)) _ (by small h) (by small h) (by small h) (by small h) (by small h) (by small h)
  | cancel t op h =>
    exact hi.drop (hi.lt (by intro e; rw [e] at h; cases h)) _ (by small h) (by small h) (by small h) (by small h) (by small h) (by small h)

theorem inv_run (hi : s.Inv) (h : Run s es s') : s'.Inv := by
  induction h with
  | nil => exact hi
  | snoc es s1 es' s2 _ hs ih => exact inv_step ih hs

theorem reach_inv {topics : List Topic} (h : Run (St.new topics) es s) : s.Inv := inv_run (inv_new topics) h

end Verif.Client

namespace Verif.Client
open Verif

/-- How one task may move: from point `p` to point `q`. -/
inductive Move (s : St) (es : List Ev) (s' : St) (u : Nat) : PC → PC → Prop
  | call (op : Op) (hn : u = s.n) (he : Ev.called u op ∈ es) : Move s es s' u .idle (.new op)
  | sendNew (m : Msg) : Move s es s' u (.new (.send m)) (.ready (.send m))
  | recvNew : Move s es s' u (.new .recv) (.ready .recv)
  | softNew : Move s es s' u (.new .softClose) (.ready .softClose)
  | ensureNew (ho : s.closed = false) : Move s es s' u (.new .ensure) (.ready .ensure)
  | ensureErr (hc : s.closed = true) : Move s es s' u (.new .ensure) .done
  | lockSubs (add : Bool) (ts : List Topic) (hw : ∀ t, (s.pc t).holdsS = false) (hr : ∀ t, (s.pc t).readsS = false) :
      Move s es s' u (.new (.topics add ts)) (.ready (.topics add ts (ts.filter fun x => decide (x ∈ s.subs) != add)))
  | read (w : Work) (hw : ∀ t, (s.pc t).holdsW = false) : Move s es s' u (.ready w) (.reading w)
  | noRead (w : Work) (hw : w ≠ .recv) (he : w ≠ .ensure) (t : Nat)
      (hb : (s.pc t).holdsW = true ∨ (s.pc t).waitsW = true) : Move s es s' u (.ready w) .done
  | noReadEnsure (t : Nat) (hb : (s.pc t).holdsW = true ∨ (s.pc t).waitsW = true) :
      Move s es s' u (.ready .ensure) .ensureWait
  | found (w : Work) (c : Nat) (hc : s.conn = some c) (he : w ≠ .ensure) : Move s es s' u (.reading w) (.using w c)
  | foundEnsure (c : Nat) (hc : s.conn = some c) : Move s es s' u (.reading .ensure) .done
  | spawn (w : Work) (hn : s.conn = none) (ho : s.closed = false) (hp : ∀ t, (s.pc t).holdsP = false)
      (hr : s'.pc s.n = .rWait) (hx : ∀ x, x ≠ u → x ≠ s.n → s'.pc x = s.pc x) :
      Move s es s' u (.reading w) (.spawned w s.n)
  | spawned (w : Work) (t : Nat) (ht : s.pc t = .reading w) (hu : u = s.n) (hn : s.conn = none)
      (ho : s.closed = false) (hp : ∀ t, (s.pc t).holdsP = false) : Move s es s' u .idle .rWait
  | noSpawn (w : Work) (hn : s.conn = none) (he : w ≠ .ensure) (hb : s.closed = true ∨ ∃ t, (s.pc t).holdsP = true) :
      Move s es s' u (.reading w) .done
  | noSpawnEnsure (hn : s.conn = none) (hb : s.closed = true ∨ ∃ t, (s.pc t).holdsP = true) :
      Move s es s' u (.reading .ensure) .ensureWait
  | store (w : Work) (r : Nat) (he : w ≠ .ensure) : Move s es s' u (.spawned w r) .done
  | storeEnsure (r : Nat) : Move s es s' u (.spawned .ensure r) .ensureWait
  | useOk (w : Work) (c : Nat) (hr : s'.subs = w.record s.subs) : Move s es s' u (.using w c) .done
  | useErr (w : Work) (c : Nat) : Move s es s' u (.using w c) (.failed w)
  | failBusy (w : Work) (t : Nat) (ht : (s.pc t).holdsP = true) : Move s es s' u (.failed w) .done
  | failFree (w : Work) (hp : ∀ t, (s.pc t).holdsP = false) : Move s es s' u (.failed w) (.wantW w)
  | lockW (w : Work) (hw : ∀ t, (s.pc t).holdsW = false) (hr : ∀ t, (s.pc t).holdsR = false) :
      Move s es s' u (.wantW w) (.holdW w)
  | take (w : Work) (hc : s'.conn = none) : Move s es s' u (.holdW w) .done
  | ensureAcq (ho : s.closed = false) (hp : ∀ t, (s.pc t).holdsP = false) : Move s es s' u .ensureWait .ensureHold
  | ensureRel : Move s es s' u .ensureHold .done
  | ensureShut (hc : s.closed = true) : Move s es s' u .ensureWait .done
  | closeGuard (hc : s'.closed = true) : Move s es s' u (.new .close) .close1
  | closeAbort : Move s es s' u .close1 .close2
  | closeLock (hw : ∀ t, (s.pc t).holdsW = false) (hr : ∀ t, (s.pc t).holdsR = false) : Move s es s' u .close2 .close3
  | closeTake (hc : s'.conn = none) : Move s es s' u .close3 .done
  | rLock (hw : ∀ t, (s.pc t).holdsW = false) (hr : ∀ t, (s.pc t).holdsR = false) : Move s es s' u .rWait .rLoop
  | rClosed (hc : s.closed = true) : Move s es s' u .rLoop .rSleep
  | rConnect (ho : s.closed = false) : Move s es s' u .rLoop .rConnecting
  | rMarshal : Move s es s' u .rConnecting .rWantSubs
  | rFail1 : Move s es s' u .rConnecting .rSleep
  | rFail2 : Move s es s' u .rWantSubs .rSleep
  | rFail3 : Move s es s' u .rAuth .rSleep
  | rSubs (hw : ∀ t, (s.pc t).holdsS = false) (he : Ev.authWith u s.subs ∈ es) : Move s es s' u .rWantSubs .rAuth
  | rAuthOk (he : Ev.connected u s.conns ∈ es) : Move s es s' u .rAuth (.rGot s.conns)
  | rSet (c : Nat) (hc : s'.conn = some c) : Move s es s' u (.rGot c) .rSet
  | rPermit : Move s es s' u .rSet .rPermit
  | rDone : Move s es s' u .rPermit .done
  | rWake : Move s es s' u .rSleep .rLoop
  | rAbort (p : PC) (h : p.abortable = true) (ha : s.aborted u = true) : Move s es s' u p .done
  | cancel (p : PC) (op : Op) (h : p.awaits = some op) : Move s es s' u p .done

theorem not_free {s : St} {P : PC → Bool} (h : ¬ s.Free P) : ∃ t, P (s.pc t) = true := by
  refine Classical.byContradiction fun hn => h fun t _ => ?_
  cases hp : P (s.pc t) with
  | false => rfl
  | true => exact absurd ⟨t, hp⟩ hn

/-- Every task stays where it is or makes one of these moves. -/
theorem pc_step {s s' : St} {es : List Ev} (hi : s.Inv) (hs : Step s es s') (u : Nat) :
    s'.pc u = s.pc u ∨ Move s es s' u (s.pc u) (s'.pc u) := by
  have go : ∀ (t : Nat) (p : PC), (u = t → Move s es s' u (s.pc u) p) → upd s.pc t p u = s.pc u ∨ Move s es s' u (s.pc u) (upd s.pc t p u) := by
    intro t p h
    by_cases e : u = t
    · right; have := h e; subst e; rw [upd_self]; exact this
    · left; exact upd_ne _ _ e
  cases hs with
  | call op => exact go _ _ fun e => by rw [hi.idle u (by omega)]; exact .call op e (by simp [e])
  | sendNew t m h => exact go _ _ fun e => by rw [e, h]; exact .sendNew m
  | recvNew t h => exact go _ _ fun e => by rw [e, h]; exact .recvNew
  | softNew t h => exact go _ _ fun e => by rw [e, h]; exact .softNew
  | ensureNew t h ho => exact go _ _ fun e => by rw [e, h]; exact .ensureNew ho
  | ensureErr t h hc => exact go _ _ fun e => by rw [e, h]; exact .ensureErr hc
  | lockSubs t add ts h hw hr =>
    exact go _ _ fun e => by rw [e, h]; exact .lockSubs add ts (hi.free rfl hw) (hi.free rfl hr)
  | read t w h hw => exact go _ _ fun e => by rw [e, h]; exact .read w (hi.free rfl hw)
  | noRead t w h hw v hv hb =>
    by_cases he : w = .ensure
    · subst he; exact go _ _ fun e => by rw [e, h]; exact .noReadEnsure v hb
    · have : (s.giveUp t w).1.pc = upd s.pc t .done := by cases w <;> simp_all [St.giveUp, St.goto]
      rw [this]; exact go _ _ fun e => by rw [e, h]; exact .noRead w hw he v hb
  | found t w h c hc he => exact go _ _ fun e => by rw [e, h]; exact .found w c hc he
  | foundEnsure t h c hc => exact go _ _ fun e => by rw [e, h]; exact .foundEnsure c hc
  | spawn t w h hn ho hp =>
    have ht : t < s.n := hi.lt (by rw [h]; simp)
    by_cases e : u = s.n
    · right
      show Move s _ _ u (s.pc u) (upd (upd s.pc t (.spawned w s.n)) s.n .rWait u)
      rw [hi.idle u (by omega), e, upd_self]
      exact .spawned w t h rfl hn ho (hi.free rfl hp)
    · show upd (upd s.pc t (.spawned w s.n)) s.n .rWait u = s.pc u ∨ Move s _ _ u (s.pc u) (upd (upd s.pc t (.spawned w s.n)) s.n .rWait u)
      rw [upd_ne _ _ e]
      exact go _ _ fun e => by rw [e, h]; exact .spawn w hn ho (hi.free rfl hp) (upd_self _ _ _) (fun x h1 h2 => by
        show upd _ _ _ _ = _
        rw [upd_ne _ _ h2, upd_ne _ _ h1])
  | noSpawn t w h hn hb =>
    have hb' : s.closed = true ∨ ∃ t, (s.pc t).holdsP = true := hb.imp id not_free
    by_cases he : w = .ensure
    · subst he; exact go _ _ fun e => by rw [e, h]; exact .noSpawnEnsure hn hb'
    · have : (s.giveUp t w).1.pc = upd s.pc t .done := by cases w <;> simp_all [St.giveUp, St.goto]
      rw [this]; exact go _ _ fun e => by rw [e, h]; exact .noSpawn w hn he hb'
  | store t w r h =>
    by_cases he : w = .ensure
    · subst he; exact go _ _ fun e => by rw [e, h]; exact .storeEnsure r
    · have : (s.giveUp t w).1.pc = upd s.pc t .done := by cases w <;> simp_all [St.giveUp, St.goto]
      show (s.giveUp t w).1.pc u = _ ∨ Move s _ _ u _ ((s.giveUp t w).1.pc u)
      rw [this]; exact go _ _ fun e => by rw [e, h]; exact .store w r he
  | useOk t w c h => exact go _ _ fun e => by rw [e, h]; exact .useOk w c rfl
  | useErr t w c h => exact go _ _ fun e => by rw [e, h]; exact .useErr w c
  | failBusy t w h hp =>
    obtain ⟨v, hv⟩ := not_free hp
    exact go _ _ fun e => by rw [e, h]; exact .failBusy w v hv
  | failFree t w h hp => exact go _ _ fun e => by rw [e, h]; exact .failFree w (hi.free rfl hp)
  | lockW t w h hw hr => exact go _ _ fun e => by rw [e, h]; exact .lockW w (hi.free rfl hw) (hi.free rfl hr)
  | take t w h => exact go _ _ fun e => by rw [e, h]; exact .take w rfl
  | ensureAcq t h ho hp => exact go _ _ fun e => by rw [e, h]; exact .ensureAcq ho (hi.free rfl hp)
  | ensureRel t h => exact go _ _ fun e => by rw [e, h]; exact .ensureRel
  | ensureShut t h hc => exact go _ _ fun e => by rw [e, h]; exact .ensureShut hc
  | closeGuard t h => exact go _ _ fun e => by rw [e, h]; exact .closeGuard rfl
  | closeAbort t h => exact go _ _ fun e => by rw [e, h]; exact .closeAbort
  | closeLock t h hw hr => exact go _ _ fun e => by rw [e, h]; exact .closeLock (hi.free rfl hw) (hi.free rfl hr)
  | closeTake t h => exact go _ _ fun e => by rw [e, h]; exact .closeTake rfl
  | rLock t h hw hr => exact go _ _ fun e => by rw [e, h]; exact .rLock (hi.free rfl hw) (hi.free rfl hr)
  | rClosed t h hc => exact go _ _ fun e => by rw [e, h]; exact .rClosed hc
  | rConnect t h ho => exact go _ _ fun e => by rw [e, h]; exact .rConnect ho
  | rMarshal t h => exact go _ _ fun e => by rw [e, h]; exact .rMarshal
  | rFail t h =>
    refine go _ _ fun e => ?_
    rcases h with h | h | h <;> rw [e, h]
    · exact .rFail1
    · exact .rFail2
    · exact .rFail3
  | rSubs t h hw => exact go _ _ fun e => by rw [e, h]; exact .rSubs (hi.free rfl hw) (by simp)
  | rAuthOk t h => exact go _ _ fun e => by rw [e, h]; exact .rAuthOk (by simp)
  | rSet t c h => exact go _ _ fun e => by rw [e, h]; exact .rSet c rfl
  | rPermit t h => exact go _ _ fun e => by rw [e, h]; exact .rPermit
  | rDone t h => exact go _ _ fun e => by rw [e, h]; exact .rDone
  | rWake t h => exact go _ _ fun e => by rw [e, h]; exact .rWake
  | rAbort t h ha => exact go _ _ fun e => by subst e; exact .rAbort _ h ha
  | cancel t op h => exact go _ _ fun e => by subst e; exact .cancel _ op h

/-- Which points are left with `Ok`. -/
theorem ok_step {s s' : St} {es : List Ev} (hs : Step s es s') {t : Nat} {op : Op} (h : Ev.returned t op true ∈ es) :
    (∃ w c, s.pc t = .using w c ∧ w.op = op ∧ s'.subs = w.record s.subs ∧
      es = w.message.map (.sent c) ++ [.returned t op true]) ∨
    (op = .ensure ∧ (s.pc t = .ensureHold ∨ (s.pc t = .ensureWait ∧ s.closed = true) ∨
      (s.pc t = .reading .ensure ∧ s.conn ≠ none))) ∨ (op = .close ∧ s.pc t = .close3 ∧ s'.conn = none) := by
  have hg : ∀ {v : Nat} {w : Work}, Ev.returned t op true ∉ (s.giveUp v w).2 := by
    intro v w; cases w <;> simp [St.giveUp]
  cases hs with
  | noRead => exact absurd h hg
  | noSpawn => exact absurd h hg
  | store => exact absurd h hg
  | useOk u w c h1 =>
    simp only [List.mem_append, List.mem_map, List.mem_singleton, reduceCtorEq, and_false, exists_false, false_or,
      Ev.returned.injEq, and_true] at h
    obtain ⟨rfl, rfl⟩ := h
    exact Or.inl ⟨w, c, h1, rfl, rfl, rfl⟩
  | foundEnsure u h1 c hc =>
    simp only [List.mem_singleton, Ev.returned.injEq, and_true] at h
    obtain ⟨rfl, rfl⟩ := h
    exact Or.inr (Or.inl ⟨rfl, Or.inr (Or.inr ⟨h1, by rw [hc]; simp⟩)⟩)
  | ensureRel u h1 =>
    simp only [List.mem_singleton, Ev.returned.injEq, and_true] at h
    obtain ⟨rfl, rfl⟩ := h
    exact Or.inr (Or.inl ⟨rfl, Or.inl h1⟩)
  | ensureShut u h1 hc =>
    simp only [List.mem_singleton, Ev.returned.injEq, and_true] at h
    obtain ⟨rfl, rfl⟩ := h
    exact Or.inr (Or.inl ⟨rfl, Or.inr (Or.inl ⟨h1, hc⟩)⟩)
  | closeTake u h1 =>
    simp only [List.mem_append, List.mem_map, List.mem_singleton, reduceCtorEq, and_false, exists_false, false_or,
      Ev.returned.injEq, and_true] at h
    obtain ⟨rfl, rfl⟩ := h
    exact Or.inr (Or.inr ⟨rfl, h1, rfl⟩)
  | take u w h1 =>
    simp at h
  | _ => simp at h

/-- The call a task at this point may return from with its next step. -/
def PC.returns : PC → Option Op
  | .new .ensure => some .ensure
  | .ready w => if w = .recv then none else some w.op
  | .reading w | .spawned w _ | .using w _ | .failed w | .holdW w => some w.op
  | .ensureWait | .ensureHold => some .ensure
  | .close3 => some .close
  | _ => none

theorem ret_step {s s' : St} {es : List Ev} (hs : Step s es s') {t : Nat} {op : Op} {ok : Bool}
    (h : Ev.returned t op ok ∈ es) : (s.pc t).returns = some op ∧ s'.pc t = .done := by
  have hg : ∀ {v : Nat} {w : Work}, Ev.returned t op ok ∈ (s.giveUp v w).2 →
      t = v ∧ op = w.op ∧ (s.giveUp v w).1.pc t = .done := by
    intro v w h; cases w <;> simp [St.giveUp] at h ⊢ <;> simp [h, St.goto, upd_self]
  cases hs with
  | noRead u w h1 hw v hv hb =>
    obtain ⟨rfl, rfl, h2⟩ := hg h
    exact ⟨by rw [h1]; simp [PC.returns, hw], h2⟩
  | noSpawn u w h1 hn hb =>
    obtain ⟨rfl, rfl, h2⟩ := hg h
    exact ⟨by rw [h1]; simp [PC.returns], h2⟩
  | store u w r h1 =>
    obtain ⟨rfl, rfl, h2⟩ := hg h
    exact ⟨by rw [h1]; simp [PC.returns], h2⟩
  | _ =>
    simp at h <;> obtain ⟨rfl, rfl, -⟩ := h <;> simp_all [PC.returns, St.goto, upd_self, Work.op]

/-- `closed` is never reset, and set by `close` only. -/
theorem closed_step {s s' : St} {es : List Ev} (hs : Step s es s') :
    s'.closed = s.closed ∨ (s'.closed = true ∧ ∃ t, s.pc t = .new .close) := by
  have hg : ∀ {v : Nat} {w : Work}, (s.giveUp v w).1.closed = s.closed := by
    intro v w; cases w <;> rfl
  cases hs with
  | closeGuard t h => exact Or.inr ⟨rfl, t, h⟩
  | noRead => exact Or.inl hg
  | noSpawn => exact Or.inl hg
  | store => exact Or.inl hg
  | _ => exact Or.inl rfl

theorem n_step {s s' : St} {es : List Ev} (hs : Step s es s') : s.n ≤ s'.n := by
  have hg : ∀ {v : Nat} {w : Work}, (s.giveUp v w).1.n = s.n := by
    intro v w; cases w <;> rfl
  cases hs with
  | noRead => exact Nat.le_of_eq hg.symm
  | noSpawn => exact Nat.le_of_eq hg.symm
  | store => exact Nat.le_of_eq hg.symm
  | call => exact Nat.le_succ _
  | spawn => exact Nat.le_succ _
  | _ => exact Nat.le_refl _

theorem called_step {s s' : St} {es : List Ev} (hs : Step s es s') {t : Nat} {op : Op}
    (h : Ev.called t op ∈ es) : t = s.n ∧ s'.pc t = .new op := by
  have hg : ∀ {v : Nat} {w : Work}, Ev.called t op ∉ (s.giveUp v w).2 := by
    intro v w; cases w <;> simp [St.giveUp]
  cases hs with
  | noRead => exact absurd h hg
  | noSpawn => exact absurd h hg
  | store => exact absurd h hg
  | call op' =>
    simp only [List.mem_singleton, Ev.called.injEq] at h
    obtain ⟨rfl, rfl⟩ := h
    exact ⟨rfl, upd_self _ _ _⟩
  | _ => simp at h

/-- Which points announce a connection attempt. -/
theorem attempt_step {s s' : St} {es : List Ev} (hs : Step s es s') {t : Nat} :
    (Ev.connecting t ∈ es → s.pc t = .rLoop ∧ s.closed = false) ∧
    (∀ ts, Ev.authWith t ts ∈ es → s.pc t = .rWantSubs ∧ ts = s.subs ∧ es = [Ev.authWith t ts]) ∧
    (∀ c, Ev.connected t c ∈ es → s.pc t = .rAuth ∧ es = [Ev.connected t c]) := by
  have hg1 : ∀ {v : Nat} {w : Work}, Ev.connecting t ∉ (s.giveUp v w).2 := by
    intro v w; cases w <;> simp [St.giveUp]
  have hg2 : ∀ {v : Nat} {w : Work} {ts}, Ev.authWith t ts ∉ (s.giveUp v w).2 := by
    intro v w ts; cases w <;> simp [St.giveUp]
  have hg3 : ∀ {v : Nat} {w : Work} {c}, Ev.connected t c ∉ (s.giveUp v w).2 := by
    intro v w c; cases w <;> simp [St.giveUp]
  cases hs with
  | noRead => exact ⟨fun h => absurd h hg1, fun _ h => absurd h hg2, fun _ h => absurd h hg3⟩
  | noSpawn => exact ⟨fun h => absurd h hg1, fun _ h => absurd h hg2, fun _ h => absurd h hg3⟩
  | store => exact ⟨fun h => absurd h hg1, fun _ h => absurd h hg2, fun _ h => absurd h hg3⟩
  | rConnect u h ho =>
    refine ⟨fun h1 => ?_, fun _ h1 => ?_, fun _ h1 => ?_⟩ <;> simp at h1
    subst h1; exact ⟨h, ho⟩
  | rSubs u h hw =>
    refine ⟨fun h1 => ?_, fun _ h1 => ?_, fun _ h1 => ?_⟩ <;> simp at h1
    obtain ⟨rfl, rfl⟩ := h1; exact ⟨h, rfl, rfl⟩
  | rAuthOk u h =>
    refine ⟨fun h1 => ?_, fun _ h1 => ?_, fun _ h1 => ?_⟩ <;> simp at h1
    obtain ⟨rfl, rfl⟩ := h1; exact ⟨h, rfl⟩
  | _ => refine ⟨fun h1 => ?_, fun _ h1 => ?_, fun _ h1 => ?_⟩ <;> simp at h1

/-- Runs can be continued. -/
theorem Run.trans {s s1 s2 : St} {es es' : List Ev} (h1 : Run s es s1) (h2 : Run s1 es' s2) :
    Run s (es ++ es') s2 := by
  induction h2 with
  | nil => simpa using h1
  | snoc es2 s3 es3 s4 h hs ih => rw [← List.append_assoc]; exact .snoc _ _ _ _ ih hs

end Verif.Client
