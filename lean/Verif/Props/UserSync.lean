import Verif.Lemmas.UserSync

/-!
# Properties C23 and C24: where users are, across brokers
-/

set_option linter.unusedSectionVars false

namespace Verif.Props.UserSync
open Verif Verif.Conns Verif.UNet

variable {U B T H : Type} [DecidableEq U] [DecidableEq B] [DecidableEq T] [DecidableEq H]
  [LT B] [DecidableLT B]

/-! ## Specification -/

/-- Where user `u` is according to the history: the broker they last connected to, unless they
disconnected from it since. -/
def location (u : U) : List (ULabel U B T H) → Option B → Option B
  | [], loc => loc
  | .call b (.addUser u' _ _) :: ls, loc => location u ls (if u' = u then some b else loc)
  | .call b (.removeUser u') :: ls, loc =>
    location u ls (if u' = u ∧ loc = some b then none else loc)
  | _ :: ls, loc => location u ls loc

/-- The call changes where this broker believes `u` to be connected: `u` connects here, or leaves
while the broker believes `u` to be here. -/
def Changes (u : U) (s : Conns U B T H) : Op U B T H → Prop
  | .addUser u' _ _ => u' = u
  | .removeUser u' => u' = u ∧ s.getBrokerOfUser u = some s.identity
  | _ => False

/-- No message under way says anything about `u`. -/
def NothingInFlight (u : U) (n : UNet U B T H) : Prop :=
  ∀ b b', ∀ m ∈ n.ch b b', m.map.get u = none

/-- Broker `b` has an unannounced change of `u`. -/
def Unannounced (u : U) (n : UNet U B T H) (b : B) : Prop := u ∈ (n.st b).direct.modified

/-- Everything about `u` has been announced and has arrived. -/
def Settled (u : U) (n : UNet U B T H) : Prop := NothingInFlight u n ∧ ∀ b, ¬ Unannounced u n b

/-- A schedule in which the changes of `u` come in turn: whenever a broker changes `u`, no other
broker has an unannounced change of `u` and nothing about `u` is under way. Several changes at the
same broker before its next announcement are allowed, and other users are not restricted. User sync
only happens through `sync` and `deliver`. -/
def InTurn (u : U) : UNet U B T H → List (ULabel U B T H) → Prop
  | _, [] => True
  | n, l :: ls =>
    (match l with
     | .call b op =>
       (∀ m, op ≠ .applyUserSync m) ∧ op ≠ .partialUserSync ∧
       (Changes u (n.st b) op →
         NothingInFlight u n ∧ ∀ b', b' ≠ b → ¬ Unannounced u n b')
     | _ => True) ∧ InTurn u (n.step l) ls

/-! ## Invariant -/

/-- Entries about `u` under way from `b` to `b'`. -/
def chU (u : U) (n : UNet U B T H) (b b' : B) : List (VV B) := (n.ch b b').filterMap (·.map.get u)

/-- Version after `base`. -/
def next : Option (VV B) → Nat
  | none => 1
  | some e => e.version + 1

/-- The common entry before the current change names a live location or does not exist. -/
def Live (base : Option (VV B)) : Prop := ∀ e, base = some e → e.value.isSome

/-- An older connection of `u` at `b` may still be open. -/
def Stale (base : Option (VV B)) (b : B) (v : View B) : Prop :=
  v.c = true → base.bind VV.value = some b

/-- What is common to both phases: entry `e` of editor `ed` says where `u` is now. -/
structure Core (base : Option (VV B)) (ed : B) (e : VV B) (loc : Option B) (k : Nat) : Prop where
  live : Live base
  ver : e.version = next base
  bound : next base ≤ k + 1
  val : e.value = loc
  here : loc = none ∨ loc = some ed

/-- The editor has not announced its change yet. -/
structure PhaseB (u : U) (n : UNet U B T H) (base : Option (VV B)) (ed : B) (e : VV B)
    (loc : Option B) (k : Nat) : Prop where
  core : Core base ed e loc k
  edE : (view (n.st ed) u).e = some e
  edM : (view (n.st ed) u).m = true
  edC : (view (n.st ed) u).c = true ↔ loc = some ed
  others : ∀ b, b ≠ ed → (view (n.st b) u).e = base ∧ (view (n.st b) u).m = false ∧
    Stale base b (view (n.st b) u)
  chans : ∀ b b', chU u n b b' = []

/-- The editor has announced its change; some brokers have received it. -/
structure PhaseC (u : U) (n : UNet U B T H) (base : Option (VV B)) (ed : B) (e : VV B)
    (loc : Option B) (k : Nat) : Prop where
  core : Core base ed e loc k
  edE : (view (n.st ed) u).e = VMap.adopted e
  edM : (view (n.st ed) u).m = false
  edC : (view (n.st ed) u).c = true ↔ loc = some ed
  others : ∀ b, b ≠ ed → (view (n.st b) u).m = false ∧
    ((chU u n ed b = [e] ∧ (view (n.st b) u).e = base ∧ Stale base b (view (n.st b) u)) ∨
     (chU u n ed b = [] ∧ (view (n.st b) u).e = VMap.adopted e ∧ (view (n.st b) u).c = false))
  chans : ∀ b b', b ≠ ed ∨ b' = ed → chU u n b b' = []

def Inv (u : U) (n : UNet U B T H) (loc : Option B) (k : Nat) : Prop :=
  (∀ b, (n.st b).identity = b) ∧
  ∃ base ed e, PhaseB u n base ed e loc k ∨ PhaseC u n base ed e loc k

theorem Core.mono {base : Option (VV B)} {ed : B} {e : VV B} {loc : Option B} {k k' : Nat}
    (h : Core base ed e loc k) (hk : k ≤ k') : Core base ed e loc k' :=
  ⟨h.live, h.ver, Nat.le_trans h.bound (by omega), h.val, h.here⟩

theorem chU_nil_of (u : U) (n : UNet U B T H) (h : NothingInFlight u n) (b b' : B) :
    chU u n b b' = [] := by
  unfold chU
  rw [List.filterMap_eq_nil_iff]
  exact h b b'

/-- One table replaced by another with the same view of `u`. -/
theorem inv_same_views (u : U) (n n' : UNet U B T H) (loc : Option B) (k k' : Nat) (hk : k ≤ k')
    (hv : ∀ b, view (n'.st b) u = view (n.st b) u) (hi : ∀ b, (n'.st b).identity = (n.st b).identity)
    (hc : ∀ b b', chU u n' b b' = chU u n b b') (h : Inv u n loc k) : Inv u n' loc k' := by
  obtain ⟨h0, base, ed, e, h | h⟩ := h
  · refine ⟨fun b => (hi b).trans (h0 b), base, ed, e, Or.inl ⟨h.core.mono hk, ?_, ?_, ?_, ?_, ?_⟩⟩
    · rw [hv]; exact h.edE
    · rw [hv]; exact h.edM
    · rw [hv]; exact h.edC
    · intro b hb; rw [hv]; exact h.others b hb
    · intro b b'; rw [hc]; exact h.chans b b'
  · refine ⟨fun b => (hi b).trans (h0 b), base, ed, e, Or.inr ⟨h.core.mono hk, ?_, ?_, ?_, ?_, ?_⟩⟩
    · rw [hv]; exact h.edE
    · rw [hv]; exact h.edM
    · rw [hv]; exact h.edC
    · intro b hb; rw [hv, hc]; exact h.others b hb
    · intro b b' hb; rw [hc]; exact h.chans b b' hb

theorem live_adopted (e : VV B) : Live (VMap.adopted e) := by
  intro x hx
  unfold VMap.adopted at hx
  split at hx
  · cases hx; assumption
  · simp at hx

theorem value_adopted (e : VV B) : (VMap.adopted e).bind VV.value = e.value := by
  unfold VMap.adopted
  split
  · rfl
  · rename_i h; cases hv : e.value with
    | none => rfl
    | some v => simp [hv] at h

theorem next_adopted_le (e : VV B) (k : Nat) (h : e.version ≤ k + 1) :
    next (VMap.adopted e) ≤ k + 1 + 1 := by
  unfold VMap.adopted
  split
  · simp only [next]; omega
  · simp only [next]; omega

/-- A broker changes `u` in turn: from either phase we are in phase B with this broker as editor. -/
theorem change (u : U) (n : UNet U B T H) (loc : Option B) (k : Nat) (h : Inv u n loc k)
    (b : B) (s' : Conns U B T H) (loc' : Option B) (hid : s'.identity = b)
    (hquiet : NothingInFlight u n) (hun : ∀ b', b' ≠ b → ¬ Unannounced u n b')
    (hk : k + 2 < 2 ^ 64)
    (hv : view s' u = ⟨some ⟨nextVer (view (n.st b) u), loc'⟩, true, loc'.isSome⟩)
    (hloc : loc' = none ∨ loc' = some b) :
    Inv u { n with st := fun x => if x = b then s' else n.st x } loc' (k + 1) := by
  have hedc : (loc'.isSome = true) ↔ loc' = some b := by
    rcases hloc with h | h <;> simp [h]
  obtain ⟨h0, base, ed, e, h | h⟩ := h
  · -- phase B: the editor is this broker
    have hed : ed = b := by
      apply Classical.byContradiction
      intro hne
      apply hun ed hne
      have := h.edM
      simpa [view, Unannounced] using this
    subst hed
    have hver : nextVer (view (n.st ed) u) = e.version := by
      simp [nextVer, h.edE, h.edM]
    rw [hver] at hv
    refine ⟨?_, base, ed, ⟨e.version, loc'⟩, Or.inl ⟨⟨h.core.live, h.core.ver,
      Nat.le_trans h.core.bound (by omega), rfl, hloc⟩, ?_, ?_, ?_, ?_, h.chans⟩⟩
    · intro x; simp only; split
      · rename_i e; rw [e]; exact hid
      · exact h0 x
    · simp only [if_true, hv]
    · simp only [if_true, hv]
    · simp only [if_true, hv]; exact hedc
    · intro x hx; simp only [if_neg hx]; exact h.others x hx
  · -- phase C with everything delivered
    have hchan := chU_nil_of u n hquiet
    have hall : ∀ x, (view (n.st x) u).e = VMap.adopted e ∧ (view (n.st x) u).m = false ∧
        Stale (VMap.adopted e) x (view (n.st x) u) := by
      intro x
      by_cases hx : x = ed
      · subst hx
        refine ⟨h.edE, h.edM, ?_⟩
        intro hc
        rw [value_adopted, h.core.val]; exact h.edC.1 hc
      · obtain ⟨hm, h1 | h1⟩ := h.others x hx
        · rw [hchan] at h1; simp at h1
        · refine ⟨h1.2.1, hm, ?_⟩
          intro hc; rw [h1.2.2] at hc; simp at hc
    have hbound : e.version ≤ k + 1 := by rw [h.core.ver]; exact h.core.bound
    have hver : nextVer (view (n.st b) u) = next (VMap.adopted e) := by
      unfold nextVer
      rw [(hall b).1, (hall b).2.1]
      unfold VMap.adopted next VMap.bump
      split
      · rename_i x hx
        split at hx
        · cases hx
          rename_i hs
          simp only [hs, if_true]
          rw [Nat.mod_eq_of_lt (by omega)]; rfl
        · simp at hx
      · rename_i hx
        split at hx
        · simp at hx
        · rename_i hs; simp [hs]
    rw [hver] at hv
    refine ⟨?_, VMap.adopted e, b, ⟨next (VMap.adopted e), loc'⟩, Or.inl ⟨⟨live_adopted e, rfl,
      next_adopted_le e k hbound, rfl, hloc⟩, ?_, ?_, ?_, ?_, ?_⟩⟩
    · intro x; simp only; split
      · rename_i e; rw [e]; exact hid
      · exact h0 x
    · simp only [if_true, hv]
    · simp only [if_true, hv]
    · simp only [if_true, hv]; exact hedc
    · intro x hx; simp only [if_neg hx]; exact hall x
    · exact hchan

/-- Only the connected flag at one broker is cleared, at a broker that does not believe `u` is
there. -/
theorem drop_stale (u : U) (n : UNet U B T H) (loc : Option B) (k : Nat) (h : Inv u n loc k)
    (b : B) (s' : Conns U B T H) (hid : s'.identity = b)
    (hnot : (view (n.st b) u).e.bind VV.value ≠ some b)
    (hv : view s' u = { view (n.st b) u with c := false }) :
    loc ≠ some b ∨ ((view (n.st b) u).e.bind VV.value ≠ loc) →
    Inv u { n with st := fun x => if x = b then s' else n.st x } loc (k + 1) := by
  intro _
  obtain ⟨h0, base, ed, e, h | h⟩ := h
  · have hloc : loc ≠ some b := by
      rintro rfl
      rcases h.core.here with h1 | h1
      · simp at h1
      · cases h1
        apply hnot; rw [h.edE]; exact h.core.val
    refine ⟨?_, base, ed, e, Or.inl ⟨h.core.mono (by omega), ?_, ?_, ?_, ?_, h.chans⟩⟩
    · intro x; simp only; split
      · rename_i e; rw [e]; exact hid
      · exact h0 x
    · simp only; split
      · rename_i he; rw [hv]; subst he; exact h.edE
      · exact h.edE
    · simp only; split
      · rename_i he; rw [hv]; subst he; exact h.edM
      · exact h.edM
    · simp only; split
      · rename_i he; rw [hv]; subst he; simp [hloc]
      · exact h.edC
    · intro x hx
      simp only; split
      · rename_i he; subst he
        obtain ⟨h1, h2, _⟩ := h.others x hx
        rw [hv]
        exact ⟨h1, h2, by intro hc; simp at hc⟩
      · exact h.others x hx
  · have hloc : ed = b → loc ≠ some b := by
      rintro rfl rfl
      apply hnot; rw [h.edE, value_adopted]; exact h.core.val
    refine ⟨?_, base, ed, e, Or.inr ⟨h.core.mono (by omega), ?_, ?_, ?_, ?_, h.chans⟩⟩
    · intro x; simp only; split
      · rename_i e; rw [e]; exact hid
      · exact h0 x
    · simp only; split
      · rename_i he; rw [hv]; subst he; exact h.edE
      · exact h.edE
    · simp only; split
      · rename_i he; rw [hv]; subst he; exact h.edM
      · exact h.edM
    · simp only; split
      · rename_i he; rw [hv]; subst he; simp [hloc rfl]
      · exact h.edC
    · intro x hx
      simp only; split
      · rename_i he; subst he
        obtain ⟨h1, h2⟩ := h.others x hx
        rw [hv]
        refine ⟨h1, ?_⟩
        rcases h2 with ⟨h3, h4, _⟩ | ⟨h3, h4, _⟩
        · exact Or.inl ⟨h3, h4, by intro hc; simp at hc⟩
        · exact Or.inr ⟨h3, h4, rfl⟩
      · exact h.others x hx

theorem inv_sync (u : U) (n : UNet U B T H) (loc : Option B) (k : Nat) (h : Inv u n loc k) (b : B) :
    Inv u (n.step (.sync b)) loc (k + 1) := by
  have hview := view_sync (n.st b) u
  have hmsg := sync_msg (n.st b) u
  have hchU : ∀ x y, chU u (n.step (.sync b)) x y = chU u n x y ++
      (if x = b ∧ y ≠ b then
        (if (view (n.st b) u).m then (view (n.st b) u).e else none).toList else []) := by
    intro x y
    simp only [chU, UNet.step]
    rw [← hmsg]
    cases hm : (n.st b).getPartialUserSync.2 with
    | none => simp
    | some m =>
      simp only [Option.bind_some]
      split
      · rw [List.filterMap_append]
        cases hg : m.map.get u <;> simp [hg]
      · simp
  have hid : ∀ x, ((n.step (.sync b)).st x).identity = (n.st x).identity := by
    intro x; simp only [UNet.step]; split
    · rename_i e; subst e; rfl
    · rfl
  by_cases hmod : (view (n.st b) u).m = true
  · -- an announcement of `u`: phase B turns into phase C
    obtain ⟨h0, base, ed, e, h | h⟩ := h
    · have hed : b = ed := by
        apply Classical.byContradiction
        intro hne
        have := (h.others b hne).2.1
        rw [hmod] at this; simp at this
      subst hed
      refine ⟨fun x => (hid x).trans (h0 x), base, b, e, Or.inr ⟨h.core.mono (by omega), ?_, ?_, ?_, ?_, ?_⟩⟩
      · simp only [UNet.step, if_true, hview, hmod, h.edE, Option.bind_some]
      · simp only [UNet.step, if_true, hview]
      · simp only [UNet.step, if_true, hview]; exact h.edC
      · intro x hx
        obtain ⟨h1, h2, h3⟩ := h.others x hx
        have hst : (n.step (.sync b)).st x = n.st x := by simp [UNet.step, hx]
        rw [hst]
        refine ⟨h2, Or.inl ⟨?_, h1, h3⟩⟩
        rw [hchU, h.chans, if_pos ⟨rfl, hx⟩, if_pos hmod, h.edE]; rfl
      · intro x y hxy
        rw [hchU, h.chans, if_neg]
        · rfl
        · rintro ⟨rfl, h2⟩
          rcases hxy with h3 | h3
          · exact h3 rfl
          · exact h2 h3
    · exfalso
      by_cases hx : b = ed
      · subst hx; rw [h.edM] at hmod; simp at hmod
      · rw [(h.others b hx).1] at hmod; simp at hmod
  · have hmod' : (view (n.st b) u).m = false := by simpa using hmod
    refine inv_same_views u n _ loc k (k + 1) (by omega) ?_ hid ?_ h
    · intro x
      simp only [UNet.step]
      split
      · rename_i e; subst e
        rw [hview, hmod']
        generalize view (n.st x) u = v at hmod'
        cases v; simp only at hmod'; subst hmod'; rfl
      · rfl
    · intro x y
      rw [hchU, hmod']; simp

theorem inv_deliver (u : U) (n : UNet U B T H) (loc : Option B) (k : Nat) (h : Inv u n loc k)
    (b b' : B) : Inv u (n.step (.deliver b b')) loc (k + 1) := by
  cases hch : n.ch b b' with
  | nil =>
    have : n.step (.deliver b b') = n := by simp only [UNet.step, hch]
    rw [this]
    exact inv_same_views u n n loc k (k + 1) (by omega) (fun _ => rfl) (fun _ => rfl) (fun _ _ => rfl) h
  | cons m rest =>
    have hstep : n.step (.deliver b b') =
        { st := fun x => if x = b' then (n.st b').applyUserSync m else n.st x
          ch := fun x y => if x = b ∧ y = b' then rest else n.ch x y } := by
      simp only [UNet.step, hch]
    rw [hstep]
    have hid : ∀ x, ((fun x => if x = b' then (n.st b').applyUserSync m else n.st x) x).identity =
        (n.st x).identity := by
      intro x; simp only; split
      · rename_i e; subst e; simp
      · rfl
    cases hg : m.map.get u with
    | none =>
      refine inv_same_views u n _ loc k (k + 1) (by omega) ?_ hid ?_ h
      · intro x; simp only; split
        · rename_i e; subst e; exact view_apply_none _ u m hg
        · rfl
      · intro x y
        simp only [chU]
        split
        · rename_i e
          obtain ⟨rfl, rfl⟩ := e
          rw [hch, List.filterMap_cons, hg]
        · rfl
    | some x =>
      have hcu : chU u n b b' = x :: rest.filterMap (·.map.get u) := by
        simp only [chU, hch, List.filterMap_cons, hg]
      obtain ⟨h0, base, ed, e, h | h⟩ := h
      · rw [h.chans] at hcu; simp at hcu
      · have hbed : b = ed ∧ b' ≠ ed := by
          apply Classical.byContradiction
          intro hne
          have : b ≠ ed ∨ b' = ed := by
            by_cases h1 : b = ed
            · by_cases h2 : b' = ed
              · exact Or.inr h2
              · exact absurd ⟨h1, h2⟩ hne
            · exact Or.inl h1
          rw [h.chans b b' this] at hcu; simp at hcu
        obtain ⟨rfl, hb'⟩ := hbed
        obtain ⟨hm, h1⟩ := h.others b' hb'
        rcases h1.symm with h1 | h1
        · rw [h1.1] at hcu; simp at hcu
        · obtain ⟨hc1, he1, hst1⟩ := h1
          rw [hc1] at hcu
          injection hcu with hx hrest
          subst hx
          have hne : e.value ≠ some (n.st b').identity := by
            rw [h0 b', h.core.val]
            rcases h.core.here with h2 | h2
            · rw [h2]; simp
            · rw [h2]; intro h3; exact hb' (Option.some.inj h3).symm
          have hres : view ((n.st b').applyUserSync m) u = ⟨VMap.adopted e, false, false⟩ := by
            by_cases ht : VMap.takes (n.st b').direct.ident m.ident (view (n.st b') u).e e
            · exact view_apply_taken _ u m e hg ht hne (by rw [hm]; simp)
            · rw [view_apply_lost _ u m e hg ht]
              -- only an unknown user's tombstone loses
              cases hb : base with
              | some be =>
                exfalso
                apply ht
                rw [he1, hb]
                left
                rw [h.core.ver, hb]; simp [next]
              | none =>
                rw [he1, hb] at ht
                have hnone : e.value.isSome ≠ true := ht
                have had : VMap.adopted e = none := by simp [VMap.adopted, hnone]
                have hcf : (view (n.st b') u).c = false := by
                  cases hc : (view (n.st b') u).c with
                  | false => rfl
                  | true => have := hst1 hc; rw [hb] at this; simp at this
                rw [hb] at he1
                generalize view (n.st b') u = v at *
                cases v
                simp only at he1 hm hcf
                rw [he1, hm, hcf, had]
          have hccAll : ∀ (st' : B → Conns U B T H) y z, ¬ (y = b ∧ z = b') →
              chU u (UNet.mk st' (fun x y => if x = b ∧ y = b' then rest else n.ch x y)) y z =
                chU u n y z := by
            intro st' y z hyz; simp only [chU, if_neg hyz]
          refine ⟨fun x => (hid x).trans (h0 x), base, b, e, Or.inr ⟨h.core.mono (by omega), ?_, ?_, ?_, ?_, ?_⟩⟩
          · simp only [if_neg (Ne.symm hb')]; exact h.edE
          · simp only [if_neg (Ne.symm hb')]; exact h.edM
          · simp only [if_neg (Ne.symm hb')]; exact h.edC
          · intro y hy
            by_cases hyb : y = b'
            · subst hyb
              simp only [if_true, hres]
              refine ⟨trivial, Or.inr ⟨?_, trivial, trivial⟩⟩
              simp only [chU, and_self, if_true]; exact hrest.symm
            · simp only [if_neg hyb]
              rw [hccAll _ b y (fun h => hyb h.2)]; exact h.others y hy
          · intro y z hyz
            have : ¬ (y = b ∧ z = b') := by
              rintro ⟨rfl, rfl⟩
              rcases hyz with h2 | h2
              · exact h2 rfl
              · exact hb' h2
            rw [hccAll _ y z this]; exact h.chans y z hyz

theorem location_cons (u : U) (l : ULabel U B T H) (ls : List (ULabel U B T H)) (loc : Option B) :
    location u (l :: ls) loc = location u ls (location u [l] loc) := by
  cases l with
  | call b op => cases op <;> rfl
  | sync => rfl
  | deliver => rfl

theorem inv_step (u : U) (n : UNet U B T H) (loc : Option B) (k : Nat) (h : Inv u n loc k)
    (l : ULabel U B T H) (hl : InTurn u n [l]) (hk : k + 2 < 2 ^ 64) :
    Inv u (n.step l) (location u [l] loc) (k + 1) := by
  cases l with
  | sync b => exact inv_sync u n loc k h b
  | deliver b b' => exact inv_deliver u n loc k h b b'
  | call b op =>
    obtain ⟨⟨hno1, hno2, hch⟩, _⟩ := hl
    have hb0 := h.1 b
    have hid : ((n.st b).step op).identity = b := by rw [Conns.identity_step]; exact hb0
    have hframe : Unrelated u op → location u [ULabel.call b op] loc = loc →
        Inv u (n.step (.call b op)) (location u [ULabel.call b op] loc) (k + 1) := by
      intro hun hloc
      rw [hloc]
      refine inv_same_views u n _ loc k (k + 1) (by omega) ?_ ?_ (fun _ _ => rfl) h
      · intro x; simp only [UNet.step]; split
        · rename_i e; subst e; exact view_unrelated _ u op hun
        · rfl
      · intro x; simp only [UNet.step]; split
        · rename_i e; subst e; simp
        · rfl
    cases op with
    | addUser u' hd ts =>
      by_cases hu : u' = u
      · subst hu
        obtain ⟨hq, hun⟩ := hch rfl
        have hloc : location u' [ULabel.call b (Op.addUser u' hd ts)] loc = some b := by
          simp [location]
        rw [hloc]
        exact change u' n loc k h b _ (some b) hid hq hun hk (by
          show view ((n.st b).addUser u' hd ts) u' = _
          rw [view_addUser, hb0]; rfl) (Or.inr rfl)
      · exact hframe hu (by simp [location, hu])
    | removeUser u' =>
      by_cases hu : u' = u
      · subst hu
        by_cases hbel : (n.st b).getBrokerOfUser u' = some (n.st b).identity
        · obtain ⟨hq, hun⟩ := hch ⟨rfl, hbel⟩
          have hbel' : (view (n.st b) u').e.bind VV.value = some b := by
            rw [hb0] at hbel; exact hbel
          -- then `u` is here
          have hloc0 : loc = some b := by
            obtain ⟨_, base, ed, e, h | h⟩ := h
            · have hed : ed = b := by
                apply Classical.byContradiction
                intro hne
                apply hun ed hne
                have := h.edM
                simpa [view, Unannounced] using this
              subst hed
              rw [h.edE] at hbel'
              rw [← h.core.val]; exact hbel'
            · have : (view (n.st b) u').e = VMap.adopted e := by
                by_cases hx : b = ed
                · subst hx; exact h.edE
                · obtain ⟨_, h1 | h1⟩ := h.others b hx
                  · rw [chU_nil_of u' n hq] at h1; simp at h1
                  · exact h1.2.1
              rw [this, value_adopted] at hbel'
              rw [← h.core.val]; exact hbel'
          have hloc : location u' [ULabel.call b (Op.removeUser (B := B) (T := T) (H := H) u')] loc = none := by
            simp [location, hloc0]
          rw [hloc]
          exact change u' n loc k h b _ none hid hq hun hk (by
            show view ((n.st b).removeUser u') u' = _
            rw [view_removeUser, hb0, remV, if_pos hbel']; rfl) (Or.inl rfl)
        · have hbel' : (view (n.st b) u').e.bind VV.value ≠ some b := by
            rw [hb0] at hbel; exact hbel
          have hloc0 : loc ≠ some b := by
            rintro rfl
            obtain ⟨_, base, ed, e, h | h⟩ := h
            · rcases h.core.here with h1 | h1
              · simp at h1
              · cases h1
                apply hbel'; rw [h.edE]; exact h.core.val
            · rcases h.core.here with h1 | h1
              · simp at h1
              · cases h1
                apply hbel'; rw [h.edE, value_adopted]; exact h.core.val
          have hloc : location u' [ULabel.call b (Op.removeUser (B := B) (T := T) (H := H) u')] loc = loc := by
            simp [location, hloc0]
          rw [hloc]
          exact drop_stale u' n loc k h b _ hid hbel' (by
            show view ((n.st b).removeUser u') u' = _
            rw [view_removeUser, hb0, remV, if_neg hbel']) (Or.inl hloc0)
      · exact hframe hu (by simp [location, hu])
    | applyUserSync m => exact absurd rfl (hno1 m)
    | partialUserSync => exact absurd rfl hno2
    | _ => exact hframe trivial rfl

theorem inv_run (u : U) (ls : List (ULabel U B T H)) (n : UNet U B T H) (loc : Option B) (k : Nat)
    (h : Inv u n loc k) (hl : InTurn u n ls) (hk : k + ls.length + 1 < 2 ^ 64) :
    Inv u (n.run ls) (location u ls loc) (k + ls.length) := by
  induction ls generalizing n loc k with
  | nil => exact h
  | cons l ls ih =>
    obtain ⟨h1, h2⟩ := hl
    rw [List.length_cons] at hk
    have h3 := inv_step u n loc k h l ⟨h1, trivial⟩ (by omega)
    have h4 := ih _ _ _ h3 h2 (by omega)
    rw [location_cons, List.length_cons, show k + (ls.length + 1) = k + 1 + ls.length by omega]
    exact h4

theorem inv_start (u : U) (b : B) : Inv u (start : UNet U B T H) none 0 := by
  refine ⟨fun _ => rfl, none, b, ⟨1, none⟩, Or.inr ⟨⟨by intro e h; simp at h, rfl, by simp [next], rfl, Or.inl rfl⟩,
    rfl, rfl, ?_, ?_, fun _ _ _ => rfl⟩⟩
  · simp [view, start, new]
  · intro x _
    exact ⟨rfl, Or.inr ⟨rfl, rfl, rfl⟩⟩

/-! ## C23 -/

/-- **C23.** Freshly started brokers in a mesh of any size; any schedule of calls by any tasks,
announcements and deliveries in which the changes of user `u` come in turn (other users are not
restricted). Whenever everything about `u` has been announced and delivered, every broker routes `u` to
the broker `u` is connected to according to the history (or to none), and exactly that broker has `u`
connected: older connections elsewhere are gone. (Fewer than `2^64 - 1` steps, so that version numbers
cannot wrap.) -/
theorem C23_location_converges (u : U) (ls : List (ULabel U B T H))
    (hin : InTurn u start ls) (hlen : ls.length + 1 < 2 ^ 64)
    (hset : Settled u ((start : UNet U B T H).run ls)) (b : B) :
    ((start : UNet U B T H).run ls |>.st b).getBrokerOfUser u = location u ls none ∧
    ((((start : UNet U B T H).run ls |>.st b).getUserConnection u).isSome ↔
      location u ls none = some b) := by
  obtain ⟨_, base, ed, e, h | h⟩ := inv_run u ls start none 0 (inv_start u b) hin (by omega)
  · exfalso
    apply hset.2 ed
    have := h.edM
    simpa [view, Unannounced] using this
  · by_cases hb : b = ed
    · subst hb
      refine ⟨?_, h.edC⟩
      show (view _ u).e.bind VV.value = _
      rw [h.edE, value_adopted]; exact h.core.val
    · obtain ⟨_, h1 | h1⟩ := h.others b hb
      · rw [chU_nil_of u _ hset.1] at h1; simp at h1
      · refine ⟨?_, ?_⟩
        · show (view _ u).e.bind VV.value = _
          rw [h1.2.1, value_adopted]; exact h.core.val
        · have hc : (((start : UNet U B T H).run ls |>.st b).users.get u).isSome = false := h1.2.2
          show ((((start : UNet U B T H).run ls |>.st b).users.get u).isSome = true) ↔ _
          rw [hc]
          constructor
          · intro h; simp at h
          · intro hloc
            rcases h.core.here with h2 | h2
            · rw [h2] at hloc; simp at hloc
            · rw [h2] at hloc; exact absurd (Option.some.inj hloc).symm hb

/-! ### A case

Three brokers. User 7 connects to broker 0, moves to broker 2, and leaves, while user 8 connects to
broker 1 in between; everything is announced and delivered in turn. -/

/-- Deliver everything broker `b` just announced. -/
def announce (b : Fin 3) : List (ULabel Nat (Fin 3) Nat Nat) :=
  .sync b :: ((List.finRange 3).filter (· ≠ b)).map (.deliver b)

def demoMove : List (ULabel Nat (Fin 3) Nat Nat) :=
  .call 0 (.addUser 7 100 [1]) :: announce 0 ++ [.call 1 (.addUser 8 101 [])] ++
  .call 2 (.addUser 7 102 [2]) :: announce 2

def inTurnB (u : Nat) : UNet Nat (Fin 3) Nat Nat → List (ULabel Nat (Fin 3) Nat Nat) → Bool
  | _, [] => true
  | n, l :: ls =>
    (match l with
     | .call b (.addUser u' _ _) => u' ≠ u ||
       ((List.finRange 3).all fun x => (List.finRange 3).all fun y =>
          (n.ch x y).all fun m => (m.map.get u).isNone) &&
       ((List.finRange 3).all fun x => x == b || u ∉ (n.st x).direct.modified)
     | .call _ _ => false
     | _ => true) && inTurnB u (n.step l) ls

theorem inTurnB_sound (u : Nat) (ls : List (ULabel Nat (Fin 3) Nat Nat))
    (n : UNet Nat (Fin 3) Nat Nat) (h : inTurnB u n ls = true) : InTurn u n ls := by
  induction ls generalizing n with
  | nil => trivial
  | cons l ls ih =>
    simp only [inTurnB, Bool.and_eq_true] at h
    refine ⟨?_, ih _ h.2⟩
    have h1 := h.1
    cases l with
    | sync => trivial
    | deliver => trivial
    | call b op =>
      cases op with
      | addUser u' hd ts =>
        refine ⟨by simp, by simp, ?_⟩
        rintro rfl
        simp at h1
        refine ⟨fun x y m hm => h1.1 x y m hm, ?_⟩
        intro x hx
        rcases h1.2 x with h2 | h2
        · exact absurd h2 hx
        · exact h2
      | _ => simp at h1

example : InTurn 7 start demoMove := inTurnB_sound _ _ _ (by decide +kernel)

example : location 7 demoMove none = some 2 := by decide +kernel

example : Settled 7 ((start : UNet Nat (Fin 3) Nat Nat).run demoMove) := by
  refine ⟨?_, ?_⟩
  · unfold NothingInFlight; decide +kernel
  · unfold Unannounced; decide +kernel

/-- Before the move broker 0 has the user, after it broker 0 has dropped the user. -/
example :
    (((start : UNet Nat (Fin 3) Nat Nat).run (demoMove.take 4)).st 0).getUserConnection 7 = some 100 ∧
    (((start : UNet Nat (Fin 3) Nat Nat).run demoMove).st 0).getUserConnection 7 = none ∧
    (((start : UNet Nat (Fin 3) Nat Nat).run demoMove).st 2).getUserConnection 7 = some 102 ∧
    ∀ b, (((start : UNet Nat (Fin 3) Nat Nat).run demoMove).st b).getBrokerOfUser 7 = some 2 := by
  decide +kernel

/-! ## C24 -/

/-- Nothing about any user is unannounced or under way. -/
def AllSettled (n : UNet U B T H) : Prop := ∀ u, Settled u n

/-- A schedule in which user sync only happens through `sync` and `deliver`; the interleaving is
arbitrary. -/
def Schedule (ls : List (ULabel U B T H)) : Prop :=
  ∀ b op, ULabel.call b op ∈ ls → (∀ m, op ≠ .applyUserSync m) ∧ op ≠ .partialUserSync

/-- The claim of C24: all brokers agree on where each user is, whatever the interleaving. -/
def AlwaysAgree (U B T H : Type) [DecidableEq U] [DecidableEq B] [DecidableEq T] [DecidableEq H]
    [LT B] [DecidableLT B] : Prop :=
  ∀ ls : List (ULabel U B T H), Schedule ls → AllSettled ((start : UNet U B T H).run ls) →
    ∀ u b b', (((start : UNet U B T H).run ls).st b).getBrokerOfUser u =
      (((start : UNet U B T H).run ls).st b').getBrokerOfUser u

/-- Two brokers, one user. The user is connected to broker 1 and everybody knows. The user's connection
to broker 1 breaks, and the user connects to broker 0, before either broker hears of the other's
change. Both changes get version 2. Broker 0 prefers the disconnect, since broker 1 has the greater
identity, and drops the live connection of the user; broker 1 prefers the connect, since it has nothing
left to compare with. -/
def race : List (ULabel Nat (Fin 2) Nat Nat) :=
  [.call 1 (.addUser 7 100 []), .sync 1, .deliver 1 0,
   .call 1 (.removeUser 7), .call 0 (.addUser 7 101 []),
   .sync 1, .sync 0, .deliver 1 0, .deliver 0 1]

/-- **C24 does not hold**: after `race` everything has been announced and delivered, yet broker 1
routes the user to broker 0, and broker 0 has disconnected them and knows nothing of them. -/
theorem C24_false : ¬ AlwaysAgree Nat (Fin 2) Nat Nat := by
  intro h
  have hs : Schedule race := by
    intro b op hm
    simp only [race, List.mem_cons, ULabel.call.injEq, reduceCtorEq, false_or, or_false,
      List.not_mem_nil] at hm
    rcases hm with ⟨_, rfl⟩ | ⟨_, rfl⟩ | ⟨_, rfl⟩ <;> exact ⟨by simp, by simp⟩
  have hq : ∀ b b', ((start : UNet Nat (Fin 2) Nat Nat).run race).ch b b' = [] := by decide +kernel
  have hm : ∀ b, (((start : UNet Nat (Fin 2) Nat Nat).run race).st b).direct.modified.elems = [] := by
    decide +kernel
  have := h race hs (fun u => ⟨by
    intro b b' m hmem; rw [hq] at hmem; simp at hmem, by
    intro b; intro hu; have hu' : u ∈ _ := hu; change u ∈ (_ : FSet Nat).elems at hu'; rw [hm] at hu'; simp at hu'⟩) 7 0 1
  revert this
  decide +kernel

/-- The user's live connection is gone as well, although the user never left broker 0. -/
example : location 7 race none = some 0 ∧
    (((start : UNet Nat (Fin 2) Nat Nat).run race).st 0).getUserConnection 7 = none ∧
    (((start : UNet Nat (Fin 2) Nat Nat).run race).st 1).getBrokerOfUser 7 = some 0 ∧
    (((start : UNet Nat (Fin 2) Nat Nat).run race).st 0).getBrokerOfUser 7 = none := by
  decide +kernel

/-- **C24, partial.** What holds of the full claim `AlwaysAgree`: brokers agree about every user whose
changes came in turn. Missing: users with concurrent changes, for which the claim is false
(`C24_false`). -/
theorem C24_agree_in_turn_partial (ls : List (ULabel U B T H)) (hlen : ls.length + 1 < 2 ^ 64)
    (hset : AllSettled ((start : UNet U B T H).run ls)) (u : U) (hin : InTurn u start ls) (b b' : B) :
    (((start : UNet U B T H).run ls).st b).getBrokerOfUser u =
      (((start : UNet U B T H).run ls).st b').getBrokerOfUser u :=
  (C23_location_converges u ls hin hlen (hset u) b).1.trans
    (C23_location_converges u ls hin hlen (hset u) b').1.symm

end Verif.Props.UserSync
