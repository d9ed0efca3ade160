import Verif.Props.DiscoverySpec

/-!
# Lemmas about the discovery store
-/

namespace Verif.Disc
open Verif Verif.Props.Ident

theorem Good.inj {a b : BrokerId} (ha : Good a) (hb : Good b) (h : a.display = b.display) : a = b :=
  C42_display_injective a b ha.1 ha.2 hb.1 hb.2 h

theorem Good.parse {a : BrokerId} (ha : Good a) : BrokerId.parse a.display = some a :=
  C42_round_trip a ha.1 ha.2

/-! ## Validity of a permit -/

variable {Id Who : BrokerId → BrokerId → Prop}

theorem valid_nil {b : BrokerId} {p : Nat} {k : Bytes} {exp : Nat} : ¬ Valid Id Who [] b p k exp := by
  rintro ⟨b0, pre, mid, -, h, -⟩
  simp at h

theorem valid_snoc {tr : List PEv} {e : PEv} {b : BrokerId} {p : Nat} {k : Bytes} {exp : Nat} :
    Valid Id Who (tr ++ [e]) b p k exp ↔
      (∃ b0, Who b0 b ∧ e = .issued b0 p k exp) ∨ (Valid Id Who tr b p k exp ∧ Keeps Id b p exp e) := by
  constructor
  · rintro ⟨b0, pre, mid, hw, h, hk⟩
    rcases List.eq_nil_or_concat mid with rfl | ⟨mid', e', rfl⟩
    · left
      have := List.append_inj' h rfl
      simp only [List.cons.injEq, and_true] at this
      exact ⟨b0, hw, this.2⟩
    · right
      rw [List.concat_eq_append] at *
      rw [← List.cons_append, ← List.append_assoc] at h
      obtain ⟨h1, h2⟩ := List.append_inj' h rfl
      simp only [List.cons.injEq, and_true] at h2
      subst h2
      exact ⟨⟨b0, pre, mid', hw, h1, fun x hx => hk x (List.mem_append_left _ hx)⟩,
        hk e (List.mem_append_right _ (List.mem_singleton.2 rfl))⟩
  · rintro (⟨b0, hw, rfl⟩ | ⟨⟨b0, pre, mid, hw, rfl, hk⟩, he⟩)
    · exact ⟨b0, tr, [], hw, rfl, by simp⟩
    · refine ⟨b0, pre, mid ++ [e], hw, by simp, ?_⟩
      intro x hx
      rcases List.mem_append.1 hx with hx | hx
      · exact hk x hx
      · rw [List.mem_singleton.1 hx]; exact he

/-- A view of a permit store: what asking would return now. -/
abbrev Ledger := BrokerId → Nat → Option (Bytes × Nat)

/-- What an event does to the view. -/
def Upd (Id Who : BrokerId → BrokerId → Prop) [∀ a b, Decidable (Id a b)] [∀ a b, Decidable (Who a b)]
    (L : Ledger) (e : PEv) (L' : Ledger) : Prop :=
  match e with
  | .issued b0 p0 k0 x0 => ∀ b, Good b → ∀ p, L' b p =
      if p0 = p ∧ Id b0 b then (if Who b0 b then some (k0, x0) else none) else L b p
  | .asked b0 p0 (some k0) => (∃ x, L b0 p0 = some (k0, x)) ∧
      ∀ b, Good b → ∀ p, L' b p = if p0 = p ∧ Id b0 b then none else L b p
  | .asked b0 p0 none => L b0 p0 = none ∧ ∀ b, Good b → ∀ p, L' b p = L b p
  | .swept t => ∀ b, Good b → ∀ p, L' b p = (L b p).filter fun r => decide (t ≤ r.2)

/-- The view agrees with the trace. -/
def Rel (Id Who : BrokerId → BrokerId → Prop) (tr : List PEv) (L : Ledger) : Prop :=
  ∀ b, Good b → ∀ p k x, L b p = some (k, x) ↔ Valid Id Who tr b p k x

theorem rel_snoc [∀ a b, Decidable (Id a b)] [∀ a b, Decidable (Who a b)]
    (hsub : ∀ a b, Who a b → Id a b) {tr : List PEv} {L L' : Ledger} {e : PEv}
    (h : Rel Id Who tr L) (hu : Upd Id Who L e L') : Rel Id Who (tr ++ [e]) L' := by
  intro b hb p k x
  rw [valid_snoc, ← h b hb p k x]
  cases e with
  | issued b0 p0 k0 x0 =>
    simp only [Upd] at hu
    rw [hu b hb p]
    simp only [Keeps, PEv.issued.injEq]
    by_cases hc : p0 = p ∧ Id b0 b
    · rw [if_pos hc]
      by_cases hw : Who b0 b
      · rw [if_pos hw]
        simp only [Option.some.injEq, Prod.mk.injEq]
        constructor
        · rintro ⟨rfl, rfl⟩
          exact Or.inl ⟨b0, hw, rfl, hc.1, rfl, rfl⟩
        · rintro (⟨b1, _, rfl, _, rfl, rfl⟩ | ⟨_, hn⟩)
          · exact ⟨rfl, rfl⟩
          · exact absurd hc hn
      · rw [if_neg hw]
        simp only [reduceCtorEq, false_iff]
        rintro (⟨b1, h1, rfl, _⟩ | ⟨_, hn⟩)
        · exact hw h1
        · exact hn hc
    · rw [if_neg hc]
      constructor
      · intro hl; exact Or.inr ⟨hl, hc⟩
      · rintro (⟨b1, h1, rfl, rfl, _⟩ | ⟨hl, _⟩)
        · exact absurd ⟨rfl, hsub _ _ h1⟩ hc
        · exact hl
  | asked b0 p0 r =>
    cases r with
    | none =>
      simp only [Upd] at hu
      rw [hu.2 b hb p]
      simp [Keeps]
    | some k0 =>
      simp only [Upd] at hu
      rw [hu.2 b hb p]
      simp only [Keeps, reduceCtorEq, and_false, exists_false, false_or]
      by_cases hc : p0 = p ∧ Id b0 b
      · rw [if_pos hc]; simp [hc]
      · rw [if_neg hc]; simp [hc]
  | swept t =>
    simp only [Upd] at hu
    rw [hu b hb p]
    simp only [Keeps, reduceCtorEq, and_false, exists_false, false_or]
    cases hl : L b p with
    | none => simp
    | some r =>
      rw [Option.filter_some]
      split
      · rename_i ht
        simp only [decide_eq_true_eq] at ht
        constructor
        · intro e; rw [e]; simp only [Option.some.injEq] at e; rw [e] at ht; exact ⟨rfl, ht⟩
        · intro e; exact e.1
      · rename_i ht
        simp only [decide_eq_true_eq] at ht
        simp only [reduceCtorEq, Option.some.injEq, false_iff]
        rintro ⟨rfl, h2⟩
        exact ht h2

/-- Every successful redemption in the trace was of a valid permit. -/
def Sound (Id Who : BrokerId → BrokerId → Prop) (tr : List PEv) : Prop :=
  ∀ pre b p k post, Good b → tr = pre ++ .asked b p (some k) :: post → ∃ x, Valid Id Who pre b p k x

/-- Every failed redemption in the trace was of an invalid permit. -/
def Complete (Id Who : BrokerId → BrokerId → Prop) (tr : List PEv) : Prop :=
  ∀ pre b p post, Good b → tr = pre ++ .asked b p none :: post → ∀ k x, ¬ Valid Id Who pre b p k x

theorem snoc_split {A : Type} {l pre post : List A} {a e : A} (h : l ++ [e] = pre ++ a :: post) :
    (post = [] ∧ l = pre ∧ e = a) ∨ ∃ post', post = post' ++ [e] ∧ l = pre ++ a :: post' := by
  rcases List.eq_nil_or_concat post with rfl | ⟨p', e', rfl⟩
  · obtain ⟨h1, h2⟩ := List.append_inj' h rfl
    simp only [List.cons.injEq, and_true] at h2
    exact Or.inl ⟨rfl, h1, h2⟩
  · rw [List.concat_eq_append] at *
    rw [← List.cons_append, ← List.append_assoc] at h
    obtain ⟨h1, h2⟩ := List.append_inj' h rfl
    simp only [List.cons.injEq, and_true] at h2
    exact Or.inr ⟨p', by rw [h2], h1⟩

theorem sound_snoc [∀ a b, Decidable (Id a b)] [∀ a b, Decidable (Who a b)]
    {tr : List PEv} {L L' : Ledger} {e : PEv} (hs : Sound Id Who tr)
    (h : Rel Id Who tr L) (hu : Upd Id Who L e L') : Sound Id Who (tr ++ [e]) := by
  intro pre b p k post hb he
  rcases snoc_split he with ⟨rfl, rfl, rfl⟩ | ⟨post', rfl, rfl⟩
  · simp only [Upd] at hu
    obtain ⟨⟨x, hx⟩, -⟩ := hu
    exact ⟨x, (h b hb p k x).1 hx⟩
  · exact hs pre b p k post' hb rfl

theorem complete_snoc [∀ a b, Decidable (Id a b)] [∀ a b, Decidable (Who a b)]
    {tr : List PEv} {L L' : Ledger} {e : PEv} (hs : Complete Id Who tr)
    (h : Rel Id Who tr L) (hu : Upd Id Who L e L') : Complete Id Who (tr ++ [e]) := by
  intro pre b p post hb he
  rcases snoc_split he with ⟨rfl, rfl, rfl⟩ | ⟨post', rfl, rfl⟩
  · simp only [Upd] at hu
    intro k x hv
    rw [← h b hb p k x, hu.1] at hv
    cases hv
  · exact hs pre b p post' hb rfl

/-! ## Keys -/

/-- Value of a digit string. -/
def undec (s : Str) : Nat := s.foldl (fun n c => 10 * n + (c.toNat - 48)) 0

theorem digit_toNat : ∀ d < 10, (Char.ofNat (48 + d)).toNat - 48 = d := by decide

theorem undec_dec (n : Nat) : undec (dec n) = n := by
  induction n using Nat.strongRecOn with
  | _ n ih =>
    unfold dec
    split
    · rename_i h
      simp only [undec, List.foldl_cons, List.foldl_nil]
      have := digit_toNat n h
      omega
    · have h1 := ih (n / 10) (by omega)
      have h2 := digit_toNat (n % 10) (by omega)
      simp only [undec, List.foldl_append, List.foldl_cons, List.foldl_nil] at *
      rw [h1, h2]
      omega

theorem dec_inj {m n : Nat} (h : dec m = dec n) : m = n := by
  rw [← undec_dec m, h, undec_dec]

theorem digit_ne_slash : ∀ d < 10, Char.ofNat (48 + d) ≠ '/' := by decide

theorem dec_noSlash (n : Nat) : NoSlash (dec n) := by
  induction n using Nat.strongRecOn with
  | _ n ih =>
    unfold dec
    split
    · rename_i h
      intro hm
      exact digit_ne_slash n h (List.mem_singleton.1 hm).symm
    · intro hm
      rcases List.mem_append.1 hm with hm | hm
      · exact ih (n / 10) (by omega) hm
      · exact digit_ne_slash (n % 10) (by omega) (List.mem_singleton.1 hm).symm

theorem split_display {b : BrokerId} (hb : Good b) (rest : Str) :
    BrokerId.split (b.display ++ '/' :: rest) = b.pub :: b.priv :: BrokerId.split rest := by
  unfold BrokerId.display
  rw [List.append_assoc, List.cons_append, split_append _ _ hb.1, split_append _ _ hb.2]

theorem split_numKey {b : BrokerId} (hb : Good b) :
    BrokerId.split (Redis.numKey b.display) = [b.pub, b.priv, "num_connections".toList] := by
  unfold Redis.numKey
  have : "/num_connections".toList = '/' :: "num_connections".toList := by decide
  rw [this, split_display hb, split_noSlash _ (by unfold NoSlash; decide)]

theorem split_permitsKey {b : BrokerId} (hb : Good b) :
    BrokerId.split (Redis.permitsKey b.display) = [b.pub, b.priv, "permits".toList] := by
  unfold Redis.permitsKey
  have : "/permits".toList = '/' :: "permits".toList := by decide
  rw [this, split_display hb, split_noSlash _ (by unfold NoSlash; decide)]

theorem split_permitKey {b : BrokerId} (hb : Good b) (p : Nat) :
    BrokerId.split (Redis.permitKey false b p) = [b.pub, b.priv, "permits".toList, dec p] := by
  unfold Redis.permitKey
  have : "/permits/".toList = '/' :: ("permits".toList ++ ['/']) := by decide
  simp only [Bool.false_eq_true, if_false]
  rw [this, List.append_assoc, List.cons_append, List.append_assoc, split_display hb]
  simp only [List.cons_append, List.nil_append]
  rw [split_append _ _ (by unfold NoSlash; decide), split_noSlash _ (dec_noSlash p)]

theorem split_permitKey_global (b : BrokerId) (p : Nat) :
    BrokerId.split (Redis.permitKey true b p) = ["permits".toList, dec p] := by
  unfold Redis.permitKey
  have : "permits/".toList = "permits".toList ++ ['/'] := by decide
  simp only [if_true]
  rw [this, List.append_assoc]
  simp only [List.cons_append, List.nil_append]
  rw [split_append _ _ (by unfold NoSlash; decide), split_noSlash _ (dec_noSlash p)]

theorem permitKey_inj {global : Bool} {b b' : BrokerId} (hb : Good b) (hb' : Good b') {p p' : Nat} :
    Redis.permitKey global b p = Redis.permitKey global b' p' ↔ p = p' ∧ (global = true ∨ b = b') := by
  cases global with
  | false =>
    constructor
    · intro h
      have h' := congrArg BrokerId.split h
      rw [split_permitKey hb, split_permitKey hb'] at h'
      simp only [List.cons.injEq, and_true, true_and] at h'
      refine ⟨dec_inj h'.2.2, Or.inr ?_⟩
      cases b; cases b'; simp_all
    · rintro ⟨rfl, h | rfl⟩
      · cases h
      · rfl
  | true =>
    constructor
    · intro h
      have h' := congrArg BrokerId.split h
      rw [split_permitKey_global, split_permitKey_global] at h'
      simp only [List.cons.injEq, and_true, true_and] at h'
      exact ⟨dec_inj h', Or.inl rfl⟩
    · rintro ⟨rfl, -⟩
      rfl

theorem numKey_ne_permitKey {global : Bool} {b b' : BrokerId} (hb : Good b) (hb' : Good b') (p : Nat) :
    Redis.numKey b.display ≠ Redis.permitKey global b' p := by
  intro h
  have h' := congrArg BrokerId.split h
  cases global with
  | false => rw [split_numKey hb, split_permitKey hb'] at h'; simp at h'
  | true => rw [split_numKey hb, split_permitKey_global] at h'; simp at h'

theorem numKey_inj {b b' : BrokerId} (hb : Good b) (hb' : Good b')
    (h : Redis.numKey b.display = Redis.numKey b'.display) : b = b' := by
  have h' := congrArg BrokerId.split h
  rw [split_numKey hb, split_numKey hb'] at h'
  cases b; cases b'; simp_all

theorem permitsKey_ne_numKey {b b' : BrokerId} (hb : Good b) (hb' : Good b') :
    Redis.permitsKey b.display ≠ Redis.numKey b'.display := by
  intro h
  have h' := congrArg BrokerId.split h
  rw [split_permitsKey hb, split_numKey hb'] at h'
  simp at h'

theorem permitsKey_ne_permitKey {global : Bool} {b b' : BrokerId} (hb : Good b) (hb' : Good b') (p : Nat) :
    Redis.permitsKey b.display ≠ Redis.permitKey global b' p := by
  intro h
  have h' := congrArg BrokerId.split h
  cases global with
  | false => rw [split_permitsKey hb, split_permitKey hb'] at h'; simp at h'
  | true => rw [split_permitsKey hb, split_permitKey_global] at h'; simp at h'

/-! ## Embedded refines the ledger -/

instance (a b : BrokerId) : Decidable (EId a b) := inferInstanceAs (Decidable True)
instance (g : Bool) (a b : BrokerId) : Decidable (MayRedeem g a b) :=
  inferInstanceAs (Decidable (g = true ∨ a = b))

/-- What asking would return. -/
def Emb.look (global : Bool) (s : Emb) : Ledger := fun b p =>
  match s.permits.get p with
  | some r => if global = true ∨ r.1 = b.display then some r.2 else none
  | none => none

/-- Invariant of the permits table: the identifiers come from good ones, the numbers are `u32`s. -/
def Emb.PInv (global : Bool) (s : Emb) : Prop :=
  ∀ p r, s.permits.get p = some r → p < 2 ^ 32 ∧ ∃ b, Good b ∧ r.1 = Emb.permitIdent global b

theorem Emb.pinv_new (global : Bool) : Emb.PInv global Emb.new := by
  intro p r h
  simp [Emb.new] at h

theorem Emb.put_permits (s : Emb) (self : BrokerId) (num exp : Nat) :
    (if num < 2 ^ 32 then s.putBroker self num exp else s).permits = s.permits := by
  split <;> rfl

theorem Emb.wstep_permits (s : Emb) (w : Emb.WStmt) : (s.wstep w).1.permits = s.permits := by
  cases w with
  | drop => rfl
  | create => rfl
  | insert ks =>
    simp only [Emb.wstep]
    repeat' split
    all_goals rfl

theorem Emb.pinv_step (global : Bool) (s : Emb) (h : s.PInv global) (l : ELabel) (hl : l.Ok) :
    (s.step global l).1.PInv global := by
  cases l with
  | putBroker self num dur now =>
    intro p r hp
    simp only [Emb.step, Emb.put_permits] at hp
    exact h p r hp
  | pruneBrokers now => exact h
  | prunePermits now =>
    intro p r hp
    simp only [Emb.step, Emb.prunePermits, AMap.get_retain] at hp
    rw [Option.filter_eq_some_iff] at hp
    exact h p r hp.1
  | issue b k dur now r0 =>
    intro p r hp
    simp only [Emb.step, Emb.issue] at hp
    split at hp
    · exact h p r hp
    · simp only [AMap.get_insert] at hp
      split at hp
      · rename_i _ e
        simp only [Option.some.injEq] at hp
        subst hp
        rw [← e]
        exact ⟨r0.toNat_lt, b, hl, rfl⟩
      · exact h p r hp
  | take b q =>
    intro p r hp
    simp only [Emb.step, Emb.take] at hp
    repeat' split at hp
    all_goals first
      | exact h p r hp
      | (simp only [AMap.get_erase] at hp
         split at hp
         · cases hp
         · exact h p r hp)
  | whitelist w =>
    intro p r hp
    simp only [Emb.step, Emb.wstep_permits] at hp
    exact h p r hp

theorem Emb.upd_step (global : Bool) (s : Emb) (h : s.PInv global) (l : ELabel) (hl : l.Ok) :
    ((s.step global l).2 = [] ∧ (s.step global l).1.look global = s.look global) ∨
    ∃ e, (s.step global l).2 = [e] ∧
      Upd EId (MayRedeem global) (s.look global) e ((s.step global l).1.look global) := by
  cases l with
  | putBroker self num dur now =>
    left
    refine ⟨rfl, ?_⟩
    unfold Emb.look
    simp only [Emb.step, Emb.put_permits]
  | pruneBrokers now => left; exact ⟨rfl, rfl⟩
  | whitelist w =>
    left
    refine ⟨rfl, ?_⟩
    unfold Emb.look
    simp only [Emb.step, Emb.wstep_permits]
  | prunePermits now =>
    right
    refine ⟨_, rfl, ?_⟩
    intro b hb p
    simp only [Emb.step, Emb.look, Emb.prunePermits, AMap.get_retain]
    cases s.permits.get p with
    | none => rfl
    | some r =>
      simp only [Option.filter_some]
      by_cases h1 : now ≤ r.2.2 <;> by_cases h2 : global = true ∨ r.1 = b.display <;>
        simp [h1, h2, Option.filter]
  | issue b k dur now r0 =>
    simp only [Emb.step, Emb.issue]
    split
    · left; exact ⟨rfl, rfl⟩
    · rename_i hnone
      right
      refine ⟨_, rfl, ?_⟩
      intro b' hb' p
      simp only [Emb.look, AMap.get_insert, EId, and_true]
      by_cases hp : r0.toNat = p
      · simp only [hp, if_true]
        cases global with
        | true => simp [MayRedeem]
        | false =>
          simp only [Bool.false_eq_true, false_or, MayRedeem, Emb.permitIdent, if_false]
          by_cases e : b = b'
          · subst e; simp
          · rw [if_neg (fun h => e (Good.inj hl hb' h)), if_neg e]
      · simp only [hp, if_false]
  | take b q =>
    right
    simp only [Emb.step, Emb.take]
    split
    · split
      · rename_i r hr
        split
        · rename_i hw
          refine ⟨_, rfl, ⟨r.2.2, ?_⟩, ?_⟩
          · simp only [Emb.look, hr]
            rw [if_pos]
            simpa using hw
          · intro b' hb' p
            simp only [Emb.look, AMap.get_erase, EId, and_true]
            by_cases e : q = p
            · simp [e]
            · simp [e]
        · rename_i hw
          refine ⟨_, rfl, ?_, fun _ _ _ => rfl⟩
          simp only [Emb.look, hr]
          rw [if_neg]
          simpa using hw
      · rename_i hr
        refine ⟨_, rfl, ?_, fun _ _ _ => rfl⟩
        simp only [Emb.look, hr]
    · rename_i hq
      refine ⟨_, rfl, ?_, fun _ _ _ => rfl⟩
      simp only [Emb.look]
      split
      · rename_i r hr
        exact absurd (h q r hr).1 hq
      · rfl

/-- The trace, the store and the ledger agree. -/
structure EAgree (global : Bool) (s : Emb) (tr : List PEv) : Prop where
  pinv : s.PInv global
  rel : Rel EId (MayRedeem global) tr (s.look global)
  sound : Sound EId (MayRedeem global) tr
  complete : Complete EId (MayRedeem global) tr

theorem eagree_new (global : Bool) : EAgree global Emb.new [] := by
  refine ⟨Emb.pinv_new global, ?_, ?_, ?_⟩
  · intro b hb p k x
    constructor
    · intro h; simp [Emb.look, Emb.new] at h
    · intro h; exact absurd h valid_nil
  · intro pre b p k post _ h; simp at h
  · intro pre b p post _ h; simp at h

theorem eagree_step (global : Bool) (s : Emb) (tr : List PEv) (h : EAgree global s tr) (l : ELabel)
    (hl : l.Ok) : EAgree global (s.step global l).1 (tr ++ (s.step global l).2) := by
  have hp := Emb.pinv_step global s h.pinv l hl
  rcases Emb.upd_step global s h.pinv l hl with ⟨h1, h2⟩ | ⟨e, h1, h2⟩
  · rw [h1, List.append_nil]
    exact ⟨hp, by rw [h2]; exact h.rel, h.sound, h.complete⟩
  · rw [h1]
    exact ⟨hp, rel_snoc (fun _ _ _ => trivial) h.rel h2, sound_snoc h.sound h.rel h2,
      complete_snoc h.complete h.rel h2⟩

theorem eagree_run (global : Bool) (ls : List ELabel) (hl : ∀ l ∈ ls, l.Ok) (s : Emb) (tr : List PEv)
    (h : EAgree global s tr) : EAgree global (s.run global ls).1 (tr ++ (s.run global ls).2) := by
  induction ls generalizing s tr with
  | nil => rw [Emb.run, List.append_nil]; exact h
  | cons l ls ih =>
    simp only [Emb.run]
    rw [← List.append_assoc]
    exact ih (fun x hx => hl x (List.mem_cons_of_mem _ hx)) _ _
      (eagree_step global s tr h l (hl l List.mem_cons_self))

/-! ## Redis refines the ledger -/

def Redis.look (global : Bool) (s : Redis) : Ledger := fun b p =>
  match s.kv.get (Redis.permitKey global b p) with
  | some (.key k, e) => some (k, e)
  | _ => none

/-- Numbers are stored under load keys only, public keys under permit keys only. -/
def Redis.KInv (global : Bool) (s : Redis) : Prop :=
  (∀ key n e, s.kv.get key = some (.num n, e) → ∃ b, Good b ∧ key = Redis.numKey b.display) ∧
  (∀ key k e, s.kv.get key = some (.key k, e) → ∃ b p, Good b ∧ key = Redis.permitKey global b p)

theorem Redis.kinv_new (global : Bool) : Redis.KInv global Redis.new := by
  constructor
  · intro key n e h; simp [Redis.new] at h
  · intro key n e h; simp [Redis.new] at h

theorem Redis.kinv_expire (global : Bool) (s : Redis) (h : s.KInv global) (now : Nat) :
    (s.expire now).KInv global := by
  constructor
  · intro key n e hk
    simp only [Redis.expire, AMap.get_retain, Option.filter_eq_some_iff] at hk
    exact h.1 key n e hk.1
  · intro key n e hk
    simp only [Redis.expire, AMap.get_retain, Option.filter_eq_some_iff] at hk
    exact h.2 key n e hk.1

theorem Redis.kinv_erase (global : Bool) (s : Redis) (h : s.KInv global) (x : Str) :
    Redis.KInv global { s with kv := s.kv.erase x } := by
  constructor
  · intro key n e hk
    simp only [AMap.get_erase] at hk
    split at hk
    · cases hk
    · exact h.1 key n e hk
  · intro key n e hk
    simp only [AMap.get_erase] at hk
    split at hk
    · cases hk
    · exact h.2 key n e hk

theorem Redis.kinv_step (global : Bool) (s : Redis) (h : s.KInv global) (l : RLabel) (hl : l.Ok) :
    (s.step global l).1.KInv global := by
  cases l with
  | heartbeat self num dur now =>
    have h' := Redis.kinv_expire global s h now
    constructor
    · intro key n e hk
      simp only [Redis.step, Redis.heartbeat, AMap.get_insert] at hk
      split at hk
      · rename_i he; exact ⟨self, hl, he.symm⟩
      · exact h'.1 key n e hk
    · intro key n e hk
      simp only [Redis.step, Redis.heartbeat, AMap.get_insert] at hk
      split at hk
      · simp at hk
      · exact h'.2 key n e hk
  | expire now => exact Redis.kinv_expire global s h now
  | issue b k dur now r =>
    have h' := Redis.kinv_expire global s h now
    constructor
    · intro key n e hk
      simp only [Redis.step, Redis.issue, AMap.get_insert] at hk
      split at hk
      · simp at hk
      · exact h'.1 key n e hk
    · intro key n e hk
      simp only [Redis.step, Redis.issue, AMap.get_insert] at hk
      split at hk
      · rename_i he; exact ⟨b, r.toNat, hl, he.symm⟩
      · exact h'.2 key n e hk
  | validate b p now =>
    have h' := Redis.kinv_expire global s h now
    simp only [Redis.step, Redis.validate]
    split
    · exact Redis.kinv_erase global _ h' _
    · exact Redis.kinv_erase global _ h' _
    · exact h'
  | setWhitelist ks => exact h

theorem Redis.upd_expire (global : Bool) (s : Redis) (now : Nat) :
    Upd (MayRedeem global) (MayRedeem global) (s.look global) (.swept now) ((s.expire now).look global) := by
  intro b hb p
  simp only [Redis.look, Redis.expire, AMap.get_retain]
  cases s.kv.get (Redis.permitKey global b p) with
  | none => rfl
  | some r =>
    obtain ⟨v, e⟩ := r
    by_cases h1 : now ≤ e <;> cases v <;> simp [h1, Option.filter]

/-- The trace, the store and the ledger agree. -/
structure RAgree (global : Bool) (s : Redis) (tr : List PEv) : Prop where
  kinv : s.KInv global
  rel : Rel (MayRedeem global) (MayRedeem global) tr (s.look global)
  sound : Sound (MayRedeem global) (MayRedeem global) tr
  complete : Complete (MayRedeem global) (MayRedeem global) tr

theorem ragree_new (global : Bool) : RAgree global Redis.new [] := by
  refine ⟨Redis.kinv_new global, ?_, ?_, ?_⟩
  · intro b hb p k x
    constructor
    · intro h; simp [Redis.look, Redis.new] at h
    · intro h; exact absurd h valid_nil
  · intro pre b p k post _ h; simp at h
  · intro pre b p post _ h; simp at h

theorem ragree_upd {global : Bool} {s s' : Redis} {tr : List PEv} {e : PEv} (h : RAgree global s tr)
    (hk : s'.KInv global) (hu : Upd (MayRedeem global) (MayRedeem global) (s.look global) e (s'.look global)) :
    RAgree global s' (tr ++ [e]) :=
  ⟨hk, rel_snoc (fun _ _ h => h) h.rel hu, sound_snoc h.sound h.rel hu, complete_snoc h.complete h.rel hu⟩

theorem ragree_step (global : Bool) (s : Redis) (tr : List PEv) (h : RAgree global s tr) (l : RLabel)
    (hl : l.Ok) : RAgree global (s.step global l).1 (tr ++ (s.step global l).2) := by
  have hk := Redis.kinv_step global s h.kinv l hl
  have hexp : ∀ now, RAgree global (s.expire now) (tr ++ [.swept now]) := fun now =>
    ragree_upd h (Redis.kinv_expire global s h.kinv now) (Redis.upd_expire global s now)
  cases l with
  | heartbeat self num dur now =>
    have h' := hexp now
    refine ⟨hk, ?_, h'.sound, h'.complete⟩
    have : (s.step global (.heartbeat self num dur now)).1.look global = (s.expire now).look global := by
      funext b p
      simp only [Redis.step, Redis.heartbeat, Redis.look, AMap.get_insert]
      by_cases e : Redis.numKey self.display = Redis.permitKey global b p
      · -- the key of a number is not the key of a permit of a good identifier; for others, both sides
        -- are compared only at good identifiers
        rw [if_pos e]
        cases hv : (s.expire now).kv.get (Redis.permitKey global b p) with
        | none => rfl
        | some r =>
          obtain ⟨v, x⟩ := r
          cases v with
          | num n => rfl
          | key k =>
            obtain ⟨b', p', hb', e'⟩ := h'.kinv.2 _ _ _ hv
            exact absurd (e.trans e') (numKey_ne_permitKey hl hb' p')
      · rw [if_neg e]
    rw [this]
    exact h'.rel
  | expire now => exact hexp now
  | issue b k dur now r =>
    have h' := hexp now
    simp only [Redis.step, Redis.issue] at hk ⊢
    rw [show tr ++ [PEv.swept now, PEv.issued b r.toNat k (now + dur)] =
      (tr ++ [.swept now]) ++ [.issued b r.toNat k (now + dur)] by simp]
    refine ragree_upd h' hk ?_
    intro b' hb' p
    simp only [Redis.look, AMap.get_insert]
    by_cases e : Redis.permitKey global b r.toNat = Redis.permitKey global b' p
    · have e' := (permitKey_inj hl hb').1 e
      have hw : MayRedeem global b b' := e'.2
      rw [if_pos e, if_pos ⟨e'.1, hw⟩, if_pos hw]
    · rw [if_neg e, if_neg (c := _ ∧ MayRedeem global b b') (fun hh => e ((permitKey_inj hl hb').2 hh))]
  | validate b p now =>
    have h' := hexp now
    simp only [Redis.step, Redis.validate] at hk ⊢
    split at hk
    · rename_i k0 x0 hv
      rw [show tr ++ [PEv.swept now, PEv.asked b p (some k0)] =
        (tr ++ [.swept now]) ++ [.asked b p (some k0)] by simp]
      refine ragree_upd h' hk ⟨⟨x0, ?_⟩, ?_⟩
      · simp only [Redis.look, hv]
      · intro b' hb' q
        simp only [Redis.look, AMap.get_erase]
        by_cases e : Redis.permitKey global b p = Redis.permitKey global b' q
        · rw [if_pos e, if_pos (c := _ ∧ MayRedeem global b b') ((permitKey_inj hl hb').1 e)]
        · rw [if_neg e, if_neg (c := _ ∧ MayRedeem global b b') (fun hh => e ((permitKey_inj hl hb').2 hh))]
    · rename_i n x0 hv
      exfalso
      obtain ⟨b', hb', e⟩ := h'.kinv.1 _ _ _ hv
      exact numKey_ne_permitKey hb' hl p e.symm
    · rename_i hv
      rw [show tr ++ [PEv.swept now, PEv.asked b p none] =
        (tr ++ [.swept now]) ++ [.asked b p none] by simp]
      refine ragree_upd h' hk ⟨?_, fun _ _ _ => rfl⟩
      simp only [Redis.look, hv]
  | setWhitelist ks =>
    simp only [Redis.step, List.append_nil] at hk ⊢
    exact ⟨hk, h.rel, h.sound, h.complete⟩

theorem ragree_run (global : Bool) (ls : List RLabel) (hl : ∀ l ∈ ls, l.Ok) (s : Redis) (tr : List PEv)
    (h : RAgree global s tr) : RAgree global (s.run global ls).1 (tr ++ (s.run global ls).2) := by
  induction ls generalizing s tr with
  | nil => rw [Redis.run, List.append_nil]; exact h
  | cons l ls ih =>
    simp only [Redis.run]
    rw [← List.append_assoc]
    exact ih (fun x hx => hl x (List.mem_cons_of_mem _ hx)) _ _
      (ragree_step global s tr h l (hl l List.mem_cons_self))

end Verif.Disc
