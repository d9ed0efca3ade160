import Verif.Model.Transfer

/-! # Invariants of the transfer model -/

namespace Verif.Transfer

def wireBytes (l : List Nat) : Nat := (l.map (4 + ·)).sum

@[simp] theorem wireBytes_nil : wireBytes [] = 0 := rfl
@[simp] theorem wireBytes_cons (n : Nat) (l : List Nat) : wireBytes (n :: l) = 4 + n + wireBytes l := by simp [wireBytes]
@[simp] theorem wireBytes_append (a b : List Nat) : wireBytes (a ++ b) = wireBytes a + wireBytes b := by simp [wireBytes]

/-- What the receiver has to read before everything of which something was written is read. -/
def need (w : List Nat) : Rcv → Nat
  | .header _ => wireBytes w
  | .alloc n _ => n + wireBytes w
  | .body _ l _ _ => l + wireBytes w
  | .ended => 0

/-- `got` bytes of a length have been read already. -/
def gotBytes : Rcv → Nat
  | .header g => g
  | _ => 0

/-- The invariant of all runs. -/
structure Inv (c : Cfg) (s : St) : Prop where
  credit : s.credit ≤ c.rate
  inn : s.inn ≤ c.inCap
  out : s.out ≤ c.outCap
  /-- bytes are conserved -/
  bytes : s.rcv ≠ .ended → gotBytes s.rcv + s.out + s.inn + s.snd.rest = need s.wire s.rcv
  last : s.wire = [] ∨ ∃ w n, s.wire = w ++ [n] ∧ s.snd.rest ≤ 4 + n
  header : ∀ l d n, s.snd = .header l d n → 0 < l ∧ l ≤ 4 ∧ ∃ w, s.wire = w ++ [n]
  body' : ∀ l d, s.snd = .body l d → 0 < l
  due : ∀ d, s.snd.due = some d → d ≤ s.now + c.limit ∧ s.now ≤ d + c.late
  body : ∀ n l a g, s.rcv = .body n l a g → l ≤ n ∧ a ≤ g ∧ g ≤ s.now ∧ s.now ≤ g + c.limit + c.late ∧
    (n - l) + s.inn + s.credit ≤ c.inCap + c.rate * (s.now - g) + c.rate
  asked : ∀ n a, s.rcv = .alloc n a → a ≤ s.now ∧ (n ≤ c.outCap + c.inCap ∨
    (∃ l d, s.snd = .body l d ∧ s.wire = [] ∧ d ≤ a + c.limit) ∨ (∃ lost, s.snd = .ended lost ∧ s.wire = [] ∧ 0 < lost))
  busy : ∀ n l a g, s.rcv = .body n l a g → n ≤ c.outCap + c.inCap ∨ g ≤ a + c.limit + c.late ∨
    (∃ lost, s.snd = .ended lost ∧ s.wire = [] ∧ 0 < lost)
  got : ∀ x ∈ s.got, x.asked ≤ x.granted ∧ x.granted ≤ x.done ∧ x.done ≤ x.granted + c.limit + c.late ∧
    x.size ≤ c.inCap + c.rate * (x.done - x.granted) + c.rate ∧
    (x.size ≤ c.outCap + c.inCap ∨ x.granted ≤ x.asked + c.limit + c.late)

theorem init_inv (c : Cfg) : Inv c init := by
  constructor <;> simp [init, gotBytes, need, Snd.rest, Snd.due]

theorem rest_write (c : Cfg) (now k : Nat) (s : Snd) (hk : k ≤ s.left) : (s.write c now k).rest + k = s.rest := by
  cases s with
  | header l d n =>
    simp only [Snd.left] at hk
    simp only [Snd.write]
    by_cases h : k < l
    · simp only [if_pos h, Snd.rest]; omega
    · by_cases h' : n = 0
      · simp only [if_neg h, if_pos h', Snd.rest]; omega
      · simp only [if_neg h, if_neg h', Snd.rest]; omega
  | body l d =>
    simp only [Snd.left] at hk
    simp only [Snd.write]
    by_cases h : k < l
    · simp only [if_pos h, Snd.rest]; omega
    · simp only [if_neg h, Snd.rest]; omega
  | ended l => simp only [Snd.left] at hk; simp [Snd.write, Snd.rest]; omega
  | ready => simp only [Snd.left] at hk; simp [Snd.write, Snd.rest]; omega

theorem step_inv (c : Cfg) (s s' : St) (l : Label) (h : Inv c s) (hs : Step c s l s') : Inv c s' := by
  obtain ⟨h1, h2, h3, h4, h5, h6, h7, h8, h9, h10, h11, h12⟩ := h
  cases hs with
  | submit n => exact ⟨h1, h2, h3, h4, h5, h6, h7, h8, h9, h10, h11, h12⟩
  | begin n rest ht hsn =>
    rw [hsn] at h4 h5 h10 h11
    refine ⟨h1, h2, h3, ?_, ?_, ?_, ?_, ?_, h9, ?_, ?_, h12⟩
    · intro he; have := h4 he; dsimp only
      cases hr : s.rcv <;> simp_all [need, gotBytes, Snd.rest] <;> omega
    · exact .inr ⟨s.wire, n, rfl, by simp [Snd.rest]⟩
    · rintro l d m h; dsimp only at h ⊢; cases h; simp
    · rintro l d h; cases h
    · rintro d h; simp only [Snd.due, Option.some.injEq] at h; subst h; dsimp only; omega
    · intro n a hr; obtain ⟨ha, hb | ⟨_, _, hb, _⟩ | ⟨_, hb, _⟩⟩ := h10 n a hr
      · exact ⟨ha, .inl hb⟩
      · cases hb
      · cases hb
    · intro n l a g hr; obtain hb | hb | ⟨_, hb, _⟩ := h11 n l a g hr
      · exact .inl hb
      · exact .inr (.inl hb)
      · cases hb
  | write k h0 hk ho =>
    have hrest := rest_write c s.now k s.snd hk
    have hby : s.rcv ≠ .ended → gotBytes s.rcv + (s.out + k) + s.inn + (s.snd.write c s.now k).rest = need s.wire s.rcv := by
      intro he; have := h4 he; omega
    refine ⟨h1, h2, ho, hby, ?_, ?_, ?_, ?_, h9, ?_, ?_, h12⟩
    · obtain h | ⟨w, n, e, h⟩ := h5
      · exact .inl h
      · exact .inr ⟨w, n, e, by dsimp only; omega⟩
    · intro l d n h; dsimp only at h ⊢
      cases hsn : s.snd with
      | header l' d' n' =>
        rw [hsn] at h; simp only [Snd.write] at h
        obtain ⟨ha, hb, hc⟩ := h6 l' d' n' hsn
        split at h
        · cases h; exact ⟨by omega, by omega, hc⟩
        · split at h <;> cases h
      | body l' d' => rw [hsn] at h; simp only [Snd.write] at h; split at h <;> cases h
      | ended _ => rw [hsn] at h; cases h
      | ready => rw [hsn] at h; cases h
    · intro l d h; dsimp only at h
      cases hsn : s.snd with
      | header l' d' n' =>
        rw [hsn] at h; simp only [Snd.write] at h
        split at h
        · cases h
        · split at h
          · cases h
          · cases h; omega
      | body l' d' => 
        rw [hsn] at h; simp only [Snd.write] at h
        split at h
        · cases h; omega
        · cases h
      | ended _ => rw [hsn] at h; cases h
      | ready => rw [hsn] at h; cases h
    · intro d h; dsimp only at h ⊢
      cases hsn : s.snd with
      | header l' d' n' =>
        rw [hsn] at h; simp only [Snd.write] at h
        split at h
        · exact h8 d (by rw [hsn]; exact h)
        · split at h
          · cases h
          · simp only [Snd.due, Option.some.injEq] at h; omega
      | body l' d' => 
        rw [hsn] at h; simp only [Snd.write] at h
        split at h
        · exact h8 d (by rw [hsn]; exact h)
        · cases h
      | ended _ => rw [hsn] at h; cases h
      | ready => rw [hsn] at h; cases h
    · intro n a hr; obtain ⟨ha, hb | ⟨l, d, hb, hc, hd⟩ | ⟨lost, hb, hc⟩⟩ := h10 n a hr
      · exact ⟨ha, .inl hb⟩
      · dsimp only at hr
        by_cases hkl : k < l
        · exact ⟨ha, .inr (.inl ⟨l - k, d, by simp [hb, Snd.write, hkl], hc, hd⟩)⟩
        · have e : s.snd.write c s.now k = .ready := by simp [hb, Snd.write, hkl]
          have := hby (by rw [hr]; simp)
          simp only [hr, e, hc, need, gotBytes, Snd.rest, wireBytes_nil] at this
          exact ⟨ha, .inl (by omega)⟩
      · exact ⟨ha, .inr (.inr ⟨lost, by simp [hb, Snd.write], hc⟩)⟩
    · intro n l a g hr; obtain hb | hb | ⟨lost, hb, hc⟩ := h11 n l a g hr
      · exact .inl hb
      · exact .inr (.inl hb)
      · exact .inr (.inr ⟨lost, by simp [hb, Snd.write], hc⟩)
  | carry k h0 hk hc hi =>
    refine ⟨by dsimp only; omega, hi, by dsimp only; omega, ?_, h5, h6, h7, h8, ?_, h10, h11, h12⟩
    · intro he; have := h4 he; dsimp only; omega
    · intro n l a g hr; have := h9 n l a g hr; dsimp only; omega
  | readHeader k g h0 hk hr hg =>
    refine ⟨h1, by dsimp only; omega, h3, ?_, h5, ?_, h7, h8, ?_, ?_, ?_, h12⟩
    · intro _; have := h4 (by rw [hr]; simp); rw [hr] at this; simp only [gotBytes, need] at this ⊢; omega
    · exact h6
    · intro n l a g h; cases h
    · intro n a h; cases h
    · intro n l a g h; cases h
  | readLength k g n rest h0 hk hr hg hw =>
    have hby := h4 (by rw [hr]; simp)
    rw [hr, hw] at hby; simp only [gotBytes, need, wireBytes_cons] at hby
    have hlast : rest = [] ∨ ∃ w m, rest = w ++ [m] ∧ s.snd.rest ≤ 4 + m := by
      obtain h | ⟨w, m, e, h⟩ := h5
      · rw [hw] at h; cases h
      · rw [hw] at e
        cases w with
        | nil => simp only [List.nil_append, List.cons.injEq] at e; exact .inl e.2
        | cons x w => simp only [List.cons_append, List.cons.injEq] at e; exact .inr ⟨w, m, e.2, h⟩
    have hh : ∀ l d m, s.snd = .header l d m → 0 < l ∧ l ≤ 4 ∧ ∃ w, rest = w ++ [m] := by
      intro l d m h; obtain ⟨ha, hb, w, e⟩ := h6 l d m h
      refine ⟨ha, hb, ?_⟩
      rw [hw] at e
      cases w with
      | nil =>
        simp only [List.nil_append, List.cons.injEq] at e
        rw [h, e.2, e.1] at hby; simp only [Snd.rest, wireBytes_nil] at hby; omega
      | cons x w => simp only [List.cons_append, List.cons.injEq] at e; exact ⟨w, e.2⟩
    refine ⟨h1, by dsimp only; omega, h3, ?_, hlast, ?_, h7, h8, ?_, ?_, ?_, h12⟩
    · intro _; simp only [gotBytes, need]; omega
    · intro l d m h; exact hh l d m h
    · intro n l a g h; cases h
    · intro m a h; dsimp only at h ⊢; cases h
      refine ⟨Nat.le_refl _, ?_⟩
      obtain he | ⟨w, m, e, hm⟩ := hlast
      · subst he
        simp only [wireBytes_nil] at hby
        cases hsn : s.snd with
        | ready => rw [hsn] at hby; simp only [Snd.rest] at hby; exact .inl (by omega)
        | header l d m => obtain ⟨_, _, w, e⟩ := hh l d m hsn; cases w <;> cases e
        | body l d => exact .inr (.inl ⟨l, d, rfl, rfl, (h8 d (by rw [hsn]; rfl)).1⟩)
        | ended lost =>
          rw [hsn] at hby; simp only [Snd.rest] at hby
          by_cases hl : 0 < lost
          · exact .inr (.inr ⟨lost, rfl, rfl, hl⟩)
          · exact .inl (by omega)
      · subst e; simp only [wireBytes_append, wireBytes_cons, wireBytes_nil] at hby; exact .inl (by omega)
    · intro n l a g h; cases h
  | grant n a hr =>
    refine ⟨h1, h2, h3, ?_, h5, ?_, h7, h8, ?_, ?_, ?_, h12⟩
    · intro _; have := h4 (by rw [hr]; simp); rw [hr] at this; simpa [gotBytes, need] using this
    · exact h6
    · intro n' l a' g h; dsimp only at h ⊢; cases h
      have := (h10 n a hr).1
      simp; omega
    · intro n a h; cases h
    · intro n' l a' g h; dsimp only at h ⊢; cases h
      obtain ⟨ha, hb | ⟨l, d, hb, hc, hd⟩ | hb⟩ := h10 n a hr
      · exact .inl hb
      · have := (h8 d (by rw [hb]; rfl)).2
        exact .inr (.inl (by omega))
      · exact .inr (.inr hb)
  | readBody k n l a g h0 hk hr hl =>
    refine ⟨h1, by dsimp only; omega, h3, ?_, h5, ?_, h7, h8, ?_, ?_, ?_, h12⟩
    · intro _; have := h4 (by rw [hr]; simp); rw [hr] at this; simp only [gotBytes, need] at this ⊢; omega
    · exact h6
    · intro n' l' a' g' h; dsimp only at h ⊢; cases h
      have := h9 n l a g hr; omega
    · intro n a h; cases h
    · intro n' l' a' g' h; dsimp only at h ⊢; cases h
      exact h11 n l a g hr
  | deliver n a g hr =>
    have hby := h4 (by rw [hr]; simp)
    rw [hr] at hby; simp only [gotBytes, need] at hby
    refine ⟨h1, h2, h3, ?_, h5, ?_, h7, h8, ?_, ?_, ?_, ?_⟩
    · intro _; simp only [gotBytes, need]; omega
    · exact h6
    · intro n l a g h; cases h
    · intro n a h; cases h
    · intro n l a g h; cases h
    · intro x hx
      rcases List.mem_append.1 hx with hx | hx
      · exact h12 x hx
      · rw [List.mem_singleton] at hx; subst hx
        dsimp only
        obtain ⟨_, hb, hc, hd, he⟩ := h9 n 0 a g hr
        refine ⟨hb, hc, hd, by omega, ?_⟩
        obtain hf | hf | ⟨lost, hf, hg, hh⟩ := h11 n 0 a g hr
        · exact .inl hf
        · exact .inr hf
        · rw [hf, hg] at hby; simp only [Snd.rest, wireBytes_nil] at hby; omega
  | sndTimeout d hd ht ho =>
    refine ⟨h1, h2, h3, h4, h5, ?_, ?_, ?_, h9, ?_, ?_, h12⟩
    · intro l d n h; cases h
    · intro l d h; cases h
    · intro d h; cases h
    · intro n a hr; obtain ⟨ha, hb | ⟨l, d, hb, hc, hd⟩ | ⟨lost, hb, hc⟩⟩ := h10 n a hr
      · exact ⟨ha, .inl hb⟩
      · exact ⟨ha, .inr (.inr ⟨l, by simp [hb, Snd.rest], hc, h7 l d hb⟩)⟩
      · rw [hb] at hd; cases hd
    · intro n l a g hr; obtain hb | hb | ⟨lost, hb, hc⟩ := h11 n l a g hr
      · exact .inl hb
      · exact .inr (.inl hb)
      · rw [hb] at hd; cases hd
  | rcvTimeout n l a g hr hl ht hi =>
    refine ⟨h1, h2, h3, ?_, h5, ?_, h7, h8, ?_, ?_, ?_, h12⟩
    · intro h; exact absurd rfl h
    · exact h6
    · intro n l a g h; cases h
    · intro n a h; cases h
    · intro n l a g h; cases h
  | tick hd1 hd2 =>
    refine ⟨Nat.le_refl _, h2, h3, h4, h5, h6, h7, ?_, ?_, ?_, h11, h12⟩
    · intro d h; dsimp only at h ⊢; have := h8 d h; have := hd1 d h; omega
    · intro n l a g hr; dsimp only at hr ⊢
      obtain ⟨ha, hb, hc, hd, he⟩ := h9 n l a g hr
      have := hd2 (g + c.limit) (by rw [hr]; rfl)
      refine ⟨ha, hb, by omega, by omega, ?_⟩
      rw [show s.now + 1 - g = (s.now - g) + 1 by omega, Nat.mul_add]
      omega
    · intro n a hr; dsimp only at hr ⊢; obtain ⟨ha, hb⟩ := h10 n a hr; exact ⟨by omega, hb⟩

theorem run_inv (c : Cfg) (ls : List Label) (s : St) (h : Run c init ls s) : Inv c s := by
  induction h with
  | nil => exact init_inv c
  | snoc _ hs ih => exact step_inv c _ _ _ ih hs

/-! ## Order -/

/-- The message being received. -/
def current : Rcv → List Nat
  | .alloc n _ => [n]
  | .body n _ _ _ => [n]
  | _ => []

theorem order (c : Cfg) (ls : List Label) (s : St) (h : Run c init ls s) :
    (s.rcv ≠ .ended → s.got.map (·.size) ++ current s.rcv ++ s.wire ++ s.todo = submitted ls) ∧
    s.got.map (·.size) <+: submitted ls := by
  induction h with
  | nil => simp [init, submitted, current]
  | @snoc ls s1 l s2 hr hs ih =>
    have hpre : s2.got.map (·.size) = s1.got.map (·.size) → s2.got.map (·.size) <+: submitted (ls ++ [l]) := by
      intro h; rw [h]; exact ih.2.trans (by simp [submitted, List.filterMap_append])
    have key : (s2.rcv ≠ .ended → s2.got.map (·.size) ++ current s2.rcv ++ s2.wire ++ s2.todo = submitted (ls ++ [l])) →
        (s2.rcv ≠ .ended ∨ s2.got.map (·.size) = s1.got.map (·.size)) →
        (s2.rcv ≠ .ended → s2.got.map (·.size) ++ current s2.rcv ++ s2.wire ++ s2.todo = submitted (ls ++ [l])) ∧
        s2.got.map (·.size) <+: submitted (ls ++ [l]) := by
      intro h1 h2
      refine ⟨h1, ?_⟩
      rcases h2 with h2 | h2
      · rw [← h1 h2, List.append_assoc, List.append_assoc]; exact List.prefix_append _ _
      · exact hpre h2
    apply key
    · intro he
      cases hs with
      | submit n => have := ih.1 he; simp [submitted, List.filterMap_append] at this ⊢; rw [← this]; simp
      | begin n rest ht hsn => have := ih.1 he; rw [ht] at this; simp [submitted, List.filterMap_append] at this ⊢; exact this
      | write k h0 hk ho => have := ih.1 he; simpa [submitted, List.filterMap_append] using this
      | carry k h0 hk hc hi => have := ih.1 he; simpa [submitted, List.filterMap_append] using this
      | readHeader k g h0 hk hr hg =>
        have := ih.1 (by rw [hr]; simp); rw [hr] at this; simpa [submitted, List.filterMap_append, current] using this
      | readLength k g n rest h0 hk hr hg hw =>
        have := ih.1 (by rw [hr]; simp); rw [hr, hw] at this; simpa [submitted, List.filterMap_append, current] using this
      | grant n a hr => have := ih.1 (by rw [hr]; simp); rw [hr] at this; simpa [submitted, List.filterMap_append, current] using this
      | readBody k n l a g h0 hk hr hl =>
        have := ih.1 (by rw [hr]; simp); rw [hr] at this; simpa [submitted, List.filterMap_append, current] using this
      | deliver n a g hr => have := ih.1 (by rw [hr]; simp); rw [hr] at this; simpa [submitted, List.filterMap_append, current] using this
      | sndTimeout d hd ht ho => have := ih.1 he; simpa [submitted, List.filterMap_append] using this
      | rcvTimeout n l a g hr hl ht hi => exact absurd rfl he
      | tick _ _ => have := ih.1 he; simpa [submitted, List.filterMap_append] using this
    · cases hs with
      | deliver n a g hr => left; simp
      | _ => right; rfl

/-! ## Prompt runs -/

theorem Prompt.run {c : Cfg} {s : St} {ls : List Label} {s' : St} (h : Prompt c s ls s') : Run c s ls s' := by
  induction h with
  | nil => exact .nil
  | snoc _ hs _ ih => exact .snoc ih hs

structure PInv (c : Cfg) (M : Nat) (s : St) : Prop where
  snd : ∀ lost, s.snd ≠ .ended lost
  rcv : s.rcv ≠ .ended
  four : ∀ g, s.rcv = .header g → g < 4
  todo : ∀ n ∈ s.todo, n ≤ M
  wire : ∀ n ∈ s.wire, n ≤ M
  cur : ∀ n ∈ current s.rcv, n ≤ M
  header : ∀ l d n, s.snd = .header l d n → n ≤ M
  sndTime : ∀ d, s.snd.due = some d → ∃ t, d = t + c.limit ∧ t ≤ s.now ∧
    s.snd.left + s.out + c.rate * (s.now - t) ≤ M + c.outCap + s.credit
  rcvTime : ∀ n l a g, s.rcv = .body n l a g → l + c.rate * (s.now - g) ≤ n + s.credit + s.inn

/-- What holds when nobody can do anything. -/
theorem quiet_facts (c : Cfg) (M : Nat) (hf : Fast c M) (s : St) (hi : Inv c s) (hp : PInv c M s) (hq : Quiet c s) :
    s.inn = 0 ∧ (∀ n a, s.rcv ≠ .alloc n a) ∧ (∀ n l a g, s.rcv = .body n l a g → 0 < l) ∧ (s.out = 0 ∨ s.credit = 0) ∧
    (s.snd.left = 0 ∨ s.out = c.outCap) ∧ (s.snd = .ready → s.todo = []) := by
  have h2 : ∀ n a, s.rcv ≠ .alloc n a := by
    intro n a hr
    obtain h | ⟨_, h⟩ := hq _ _ (.grant n a hr) <;> cases h
  have h3 : ∀ n l a g, s.rcv = .body n l a g → 0 < l := by
    intro n l a g hr
    cases l with
    | zero => obtain h | ⟨_, h⟩ := hq _ _ (.deliver n a g hr) <;> cases h
    | succ l => omega
  have h1 : s.inn = 0 := by
    apply Classical.byContradiction; intro hne
    have hby := hi.bytes hp.rcv
    cases hr : s.rcv with
    | header g =>
      rw [hr] at hby; simp only [gotBytes, need] at hby
      by_cases hg : g + 1 < 4
      · obtain h | ⟨_, h⟩ := hq _ _ (.readHeader 1 g (by omega) (by omega) hr hg) <;> cases h
      · have := hp.four g hr
        cases hw : s.wire with
        | nil => rw [hw] at hby; simp only [wireBytes_nil] at hby; omega
        | cons n rest =>
          obtain h | ⟨_, h⟩ := hq _ _ (.readLength 1 g n rest (by omega) (by omega) hr (by omega) hw) <;> cases h
    | alloc n a => exact h2 n a hr
    | body n l a g =>
      have := h3 n l a g hr
      obtain h | ⟨_, h⟩ := hq _ _ (.readBody 1 n l a g (by omega) (by omega) hr (by omega)) <;> cases h
    | ended => exact hp.rcv hr
  refine ⟨h1, h2, h3, ?_, ?_, ?_⟩
  · apply Classical.byContradiction; intro hne
    have := hf.inn
    obtain h | ⟨_, h⟩ := hq _ _ (.carry 1 (by omega) (by omega) (by omega) (by omega)) <;> cases h
  · apply Classical.byContradiction; intro hne
    have := hi.out
    obtain h | ⟨_, h⟩ := hq _ _ (.write 1 (by omega) (by omega) (by omega)) <;> cases h
  · intro hs
    cases ht : s.todo with
    | nil => rfl
    | cons n rest => obtain h | ⟨_, h⟩ := hq _ _ (.begin n rest ht hs) <;> cases h

theorem init_pinv (c : Cfg) (M : Nat) : PInv c M init := by
  constructor <;> simp [init, current, Snd.due]

theorem step_pinv (c : Cfg) (M : Nat) (hf : Fast c M) (s s' : St) (l : Label) (hi : Inv c s) (h : PInv c M s) (hs : Step c s l s')
    (hq : l = .tick → Quiet c s) (hn : ∀ n, l = .submit n → n ≤ M) : PInv c M s' := by
  have hqf := fun e => quiet_facts c M hf s hi h (hq e)
  obtain ⟨h1, h2, h3, h4, h5, h6, h7, h8, h9⟩ := h
  cases hs with
  | submit n =>
    refine ⟨h1, h2, h3, ?_, h5, h6, h7, h8, h9⟩
    intro m hm; rcases List.mem_append.1 hm with hm | hm
    · exact h4 m hm
    · rw [List.mem_singleton] at hm; subst hm; exact hn _ rfl
  | begin n rest ht hsn =>
    have hnM : n ≤ M := h4 n (by rw [ht]; simp)
    refine ⟨(by intro _ h; cases h), h2, h3, ?_, ?_, h6, ?_, ?_, h9⟩
    · intro m hm; exact h4 m (by rw [ht]; exact List.mem_cons_of_mem _ hm)
    · intro m hm; rcases List.mem_append.1 hm with hm | hm
      · exact h5 m hm
      · rw [List.mem_singleton] at hm; subst hm; exact hnM
    · intro l d m h; cases h; exact hnM
    · intro d h; simp only [Snd.due, Option.some.injEq] at h
      refine ⟨s.now, h.symm, Nat.le_refl _, ?_⟩
      have := hf.len; have := hi.out
      simp [Snd.left]; omega
  | write k h0 hk ho =>
    have hd : ∀ d, (s.snd.write c s.now k).due = some d →
        (s.snd.due = some d ∧ (s.snd.write c s.now k).left + k = s.snd.left) ∨
        (d = s.now + c.limit ∧ (s.snd.write c s.now k).left ≤ M) := by
      intro d h
      cases hsn : s.snd with
      | header l' d' n' =>
        rw [hsn] at h hk; simp only [Snd.write] at h ⊢; simp only [Snd.left] at hk
        split at h
        · rename_i hlt; left; simp only [if_pos hlt]; exact ⟨h, by simp [Snd.left]; omega⟩
        · rename_i hlt; split at h
          · cases h
          · rename_i hz; right; simp only [if_neg hlt, if_neg hz]
            simp only [Snd.due, Option.some.injEq] at h
            exact ⟨h.symm, h7 _ _ _ hsn⟩
      | body l' d' =>
        rw [hsn] at h hk; simp only [Snd.write] at h ⊢; simp only [Snd.left] at hk
        split at h
        · rename_i hlt; left; simp only [if_pos hlt]; exact ⟨h, by simp [Snd.left]; omega⟩
        · cases h
      | ended x => exact absurd hsn (h1 x)
      | ready => rw [hsn] at h; cases h
    refine ⟨?_, h2, h3, h4, h5, h6, ?_, ?_, h9⟩
    · intro lost h; dsimp only at h
      cases hsn : s.snd with
      | header l' d' n' =>
        rw [hsn] at h; simp only [Snd.write] at h
        split at h
        · cases h
        · split at h <;> cases h
      | body l' d' => rw [hsn] at h; simp only [Snd.write] at h; split at h <;> cases h
      | ended x => exact h1 x hsn
      | ready => rw [hsn] at h; cases h
    · intro l d n h; dsimp only at h
      cases hsn : s.snd with
      | header l' d' n' =>
        have := h7 _ _ _ hsn
        rw [hsn] at h; simp only [Snd.write] at h
        split at h
        · cases h; exact this
        · split at h <;> cases h
      | body l' d' => rw [hsn] at h; simp only [Snd.write] at h; split at h <;> cases h
      | ended x => exact absurd hsn (h1 x)
      | ready => rw [hsn] at h; cases h
    · intro d h; dsimp only at h ⊢
      obtain ⟨ha, hb⟩ | ⟨ha, hb⟩ := hd d h
      · obtain ⟨t, e, ht, hle⟩ := h8 d ha
        exact ⟨t, e, ht, by omega⟩
      · refine ⟨s.now, ha, Nat.le_refl _, ?_⟩
        simp; omega
  | carry k h0 hk hc hin =>
    refine ⟨h1, h2, h3, h4, h5, h6, h7, ?_, ?_⟩
    · intro d h; obtain ⟨t, e, ht, hle⟩ := h8 d h; exact ⟨t, e, ht, by dsimp only; omega⟩
    · intro n l a g h; have := h9 n l a g h; dsimp only; omega
  | readHeader k g h0 hk hr hg =>
    exact ⟨h1, by simp, by rintro g' h; cases h; exact hg, h4, h5, by simp [current], h7, h8, (by intro n l a g h; cases h)⟩
  | readLength k g n rest h0 hk hr hg hw =>
    rw [hw] at h5
    exact ⟨h1, by simp, (by rintro g' h; cases h), h4, fun m hm => h5 m (List.mem_cons_of_mem _ hm),
      by simp only [current, List.mem_singleton]; rintro m rfl; exact h5 m (by simp), h7, h8, (by intro n l a g h; cases h)⟩
  | grant n a hr =>
    rw [hr] at h6
    refine ⟨h1, by simp, (by rintro g' h; cases h), h4, h5, h6, h7, h8, ?_⟩
    intro n' l a' g h; cases h; simp; omega
  | readBody k n l a g h0 hk hr hl =>
    rw [hr] at h6
    refine ⟨h1, by simp, (by rintro g' h; cases h), h4, h5, h6, h7, h8, ?_⟩
    intro n' l' a' g' h; dsimp only at h ⊢; cases h
    have := h9 n l a g hr; omega
  | deliver n a g hr =>
    exact ⟨h1, by simp, by rintro g' h; cases h; omega, h4, h5, by simp [current], h7, h8, (by intro n l a g h; cases h)⟩
  | sndTimeout d hd ht ho =>
    exfalso
    obtain ⟨t, e, ht', hle⟩ := h8 d hd
    have hl : 0 < s.snd.left := by
      cases hsn : s.snd with
      | header l' d' n' => exact (hi.header _ _ _ hsn).1
      | body l' d' => exact hi.body' _ _ hsn
      | ended x => exact absurd hsn (h1 x)
      | ready => rw [hsn] at hd; cases hd
    have h10 : c.rate * c.limit ≤ c.rate * (s.now - t) := Nat.mul_le_mul_left _ (by omega)
    have := hf.size; have := hi.credit
    omega
  | rcvTimeout n l a g hr hl ht hin =>
    exfalso
    have h10 : c.rate * c.limit ≤ c.rate * (s.now - g) := Nat.mul_le_mul_left _ (by omega)
    have := hf.size; have := hi.credit; have := h9 n l a g hr
    have := h6 n (by rw [hr]; simp [current])
    omega
  | tick hd1 hd2 =>
    obtain ⟨q1, q2, q3, q4, q5, q6⟩ := hqf rfl
    have hpos : 0 < s.snd.left → s.credit = 0 := by
      intro h; have := hf.out; omega
    refine ⟨h1, h2, h3, h4, h5, h6, h7, ?_, ?_⟩
    · intro d h; dsimp only at h ⊢
      have hl : 0 < s.snd.left := by
        cases hsn : s.snd with
        | header l' d' n' => exact (hi.header _ _ _ hsn).1
        | body l' d' => exact hi.body' _ _ hsn
        | ended x => exact absurd hsn (h1 x)
        | ready => rw [hsn] at h; cases h
      obtain ⟨t, e, ht, hle⟩ := h8 d h
      refine ⟨t, e, by omega, ?_⟩
      rw [show s.now + 1 - t = (s.now - t) + 1 by omega, Nat.mul_add]
      have := hpos hl; omega
    · intro n l a g hr; dsimp only at hr ⊢
      have hle := h9 n l a g hr
      have hb := hi.body n l a g hr
      have hby := hi.bytes h2
      rw [hr] at hby; simp only [gotBytes, need] at hby
      have := q3 n l a g hr
      have hc : s.credit = 0 := by
        by_cases ho : s.out = 0
        · apply hpos
          cases hsn : s.snd with
          | header l' d' n' => exact (hi.header _ _ _ hsn).1
          | body l' d' => exact hi.body' _ _ hsn
          | ended x => exact absurd hsn (h1 x)
          | ready => rw [hsn] at hby; simp only [Snd.rest] at hby; omega
        · omega
      rw [show s.now + 1 - g = (s.now - g) + 1 by omega, Nat.mul_add]
      omega

theorem prompt_pinv (c : Cfg) (M : Nat) (hf : Fast c M) (ls : List Label) (s : St) (h : Prompt c init ls s)
    (hn : ∀ n ∈ submitted ls, n ≤ M) : PInv c M s := by
  induction h with
  | nil => exact init_pinv c M
  | @snoc ls s1 l s2 hr hs hq ih =>
    have hs1 : submitted (ls ++ [l]) = submitted ls ++ submitted [l] := by simp [submitted, List.filterMap_append]
    rw [hs1] at hn
    refine step_pinv c M hf s1 s2 l (run_inv c _ _ hr.run) (ih fun n hm => hn n (List.mem_append_left _ hm)) hs hq ?_
    rintro n rfl
    exact hn n (by simp [submitted])

/-! ## Everything arrives -/

/-- Bytes not yet carried. -/
def U (s : St) : Nat := wireBytes s.todo + s.snd.rest + s.out

/-- Nothing is under way. -/
def Idle (s : St) : Prop := s.todo = [] ∧ s.snd = .ready ∧ s.out = 0 ∧ s.inn = 0 ∧ s.rcv = .header 0 ∧ s.wire = []

theorem step_U (c : Cfg) (s s' : St) (l : Label) (hs : Step c s l s') :
    U s' ≤ U s + wireBytes (submitted [l]) ∧ (U s' + s.credit ≤ U s + wireBytes (submitted [l]) + s'.credit ∨ l = .tick) := by
  cases hs with
  | submit n => simp [U, submitted]; omega
  | begin n rest ht hsn => simp [U, submitted, ht, hsn, Snd.rest]; omega
  | write k h0 hk ho => have := rest_write c s.now k s.snd hk; simp [U, submitted]; omega
  | carry k h0 hk hc hin => simp [U, submitted]; omega
  | sndTimeout d hd ht ho => simp [U, submitted, Snd.rest]
  | tick _ _ => simp [U]
  | _ => simp [U, submitted]

theorem U_le (c : Cfg) (ls : List Label) (s : St) (h : Run c init ls s) : U s ≤ wireBytes (submitted ls) := by
  induction h with
  | nil => simp [U, init, Snd.rest]
  | @snoc ls s1 l s2 hr hs ih =>
    have := (step_U c s1 s2 l hs).1
    have hs1 : submitted (ls ++ [l]) = submitted ls ++ submitted [l] := by simp [submitted, List.filterMap_append]
    rw [hs1, wireBytes_append]; omega

/-- If nobody can do anything, something is left to be carried or nothing is under way. -/
theorem quiet_idle (c : Cfg) (M : Nat) (hf : Fast c M) (s : St) (hi : Inv c s) (hp : PInv c M s) (hq : Quiet c s) :
    Idle s ∨ s.credit = 0 := by
  obtain ⟨q1, q2, q3, q4, q5, q6⟩ := quiet_facts c M hf s hi hp hq
  by_cases hc : s.credit = 0
  · exact .inr hc
  left
  have ho : s.out = 0 := by omega
  have hl : s.snd.left = 0 := by have := hf.out; omega
  have hs : s.snd = .ready := by
    cases hsn : s.snd with
    | header l' d' n' => have := (hi.header _ _ _ hsn).1; rw [hsn] at hl; simp only [Snd.left] at hl; omega
    | body l' d' => have := hi.body' _ _ hsn; rw [hsn] at hl; simp only [Snd.left] at hl; omega
    | ended x => exact absurd hsn (hp.snd x)
    | ready => rfl
  have hby := hi.bytes hp.rcv
  rw [hs, ho, q1] at hby; simp only [Snd.rest] at hby
  cases hr : s.rcv with
  | header g =>
    rw [hr] at hby; simp only [gotBytes, need] at hby
    cases hw : s.wire with
    | nil => rw [hw] at hby; simp only [wireBytes_nil] at hby; exact ⟨q6 hs, hs, ho, q1, by rw [show g = 0 by omega] at hr; exact hr, hw⟩
    | cons n rest =>
      have := hp.four g hr
      rw [hw] at hby; simp only [wireBytes_cons] at hby; omega
  | alloc n a => exact absurd hr (q2 n a)
  | body n l a g =>
    have := q3 n l a g hr
    rw [hr] at hby; simp only [gotBytes, need] at hby; omega
  | ended => exact absurd hr hp.rcv

theorem idle_step (c : Cfg) (s s' : St) (l : Label) (h : Idle s) (hs : Step c s l s') (hl : submitted [l] = []) : Idle s' := by
  obtain ⟨h1, h2, h3, h4, h5, h6⟩ := h
  cases hs with
  | submit n => simp [submitted] at hl
  | begin n rest ht hsn => rw [h1] at ht; cases ht
  | write k h0 hk ho => rw [h2] at hk; simp only [Snd.left] at hk; omega
  | carry k h0 hk hc hin => omega
  | readHeader k g h0 hk hr hg => omega
  | readLength k g n rest h0 hk hr hg hw => omega
  | grant n a hr => rw [h5] at hr; cases hr
  | readBody k n l a g h0 hk hr hl => omega
  | deliver n a g hr => rw [h5] at hr; cases hr
  | sndTimeout d hd ht ho => rw [h2] at hd; cases hd
  | rcvTimeout n l a g hr hl ht hin => rw [h5] at hr; cases hr
  | tick _ _ => exact ⟨h1, h2, h3, h4, h5, h6⟩

theorem Prompt.append {c : Cfg} {s s1 s2 : St} {a b : List Label} (h1 : Prompt c s a s1) (h2 : Prompt c s1 b s2) :
    Prompt c s (a ++ b) s2 := by
  induction h2 with
  | nil => simpa using h1
  | snoc _ hs hq ih => rw [← List.append_assoc]; exact .snoc ih hs hq

theorem arrives (c : Cfg) (M : Nat) (hf : Fast c M) (ls : List Label) (s0 : St) (h0 : Prompt c init ls s0)
    (hn : ∀ n ∈ submitted ls, n ≤ M) (ls' : List Label) (s : St) (h : Prompt c s0 ls' s) (hns : submitted ls' = []) :
    s0.now ≤ s.now ∧ (Idle s ∨ U s + c.rate * (s.now - s0.now) ≤ U s0 + s.credit) := by
  induction h with
  | nil => exact ⟨Nat.le_refl _, .inr (by simp)⟩
  | @snoc ls' s1 l s2 hr hs hq ih =>
    have hs1 : submitted (ls' ++ [l]) = submitted ls' ++ submitted [l] := by simp [submitted, List.filterMap_append]
    rw [hs1, List.append_eq_nil_iff] at hns
    have hall := h0.append hr
    have hsub : submitted (ls ++ ls') = submitted ls := by
      have : submitted (ls ++ ls') = submitted ls ++ submitted ls' := by simp [submitted, List.filterMap_append]
      rw [this, hns.1, List.append_nil]
    have hi := run_inv c _ _ hall.run
    have hp := prompt_pinv c M hf _ _ hall (by rw [hsub]; exact hn)
    obtain ⟨ht, ih⟩ := ih hns.1
    by_cases hl : l = .tick
    · subst hl
      have hid := quiet_idle c M hf s1 hi hp (hq rfl)
      cases hs with
      | tick d1 d2 =>
        refine ⟨by dsimp only; omega, ?_⟩
        rcases ih with ih | ih
        · exact .inl ih
        · rcases hid with hid | hid
          · exact .inl hid
          · right; simp only [U] at ih ⊢
            rw [show s1.now + 1 - s0.now = (s1.now - s0.now) + 1 by omega, Nat.mul_add]
            omega
    · have hnow : s2.now = s1.now := by
        cases hs with
        | tick _ _ => exact absurd rfl hl
        | _ => rfl
      refine ⟨by omega, ?_⟩
      rcases ih with ih | ih
      · exact .inl (idle_step c s1 s2 l ih hs hns.2)
      · right
        have := (step_U c s1 s2 l hs).2.resolve_right hl
        rw [hns.2, wireBytes_nil] at this
        rw [hnow]; omega

/-! ## Time goes on -/

def weight : Rcv → Nat
  | .alloc _ _ => 2
  | .body _ _ _ _ => 1
  | _ => 0

/-- What everybody together still has to do. -/
def work (s : St) : Nat :=
  3 * wireBytes s.todo + 5 * s.todo.length + 3 * s.snd.rest + 2 * s.out + s.inn + 3 * s.wire.length + weight s.rcv

theorem step_work (c : Cfg) (M : Nat) (s s' : St) (l : Label) (hp : PInv c M s') (hs : Step c s l s')
    (hl : l ≠ .tick) (hn : ∀ n, l ≠ .submit n) : work s' < work s ∧ s'.now = s.now := by
  cases hs with
  | submit n => exact absurd rfl (hn n)
  | begin n rest ht hsn => simp [work, ht, hsn, Snd.rest]; omega
  | write k h0 hk ho => have := rest_write c s.now k s.snd hk; simp [work]; omega
  | carry k h0 hk hc hin => simp [work]; omega
  | readHeader k g h0 hk hr hg => simp [work, hr, weight]; omega
  | readLength k g n rest h0 hk hr hg hw => simp [work, hr, hw, weight]; omega
  | grant n a hr => simp [work, hr, weight]
  | readBody k n l a g h0 hk hr hl => simp [work, hr, weight]; omega
  | deliver n a g hr => simp [work, hr, weight]
  | sndTimeout d hd ht ho => exact absurd rfl (hp.snd _)
  | rcvTimeout n l a g hr hl ht hin => exact absurd rfl hp.rcv
  | tick _ _ => exact absurd rfl hl

theorem submitted_append (a b : List Label) : submitted (a ++ b) = submitted a ++ submitted b := by
  simp [submitted, List.filterMap_append]

theorem submitted_other (l : Label) (hn : ∀ n, l ≠ .submit n) : submitted [l] = [] := by
  cases l with
  | submit n => exact absurd rfl (hn n)
  | _ => rfl

theorem to_quiet (c : Cfg) (M : Nat) (hf : Fast c M) (w : Nat) : ∀ (ls : List Label) (s : St), Prompt c init ls s →
    (∀ n ∈ submitted ls, n ≤ M) → work s = w →
    ∃ ls' s', Prompt c s ls' s' ∧ submitted ls' = [] ∧ s'.now = s.now ∧ Quiet c s' := by
  induction w using Nat.strongRecOn with
  | ind w ih =>
    intro ls s h hn hw
    by_cases hq : Quiet c s
    · exact ⟨[], s, .nil, rfl, rfl, hq⟩
    · simp only [Quiet, Classical.not_forall, not_or, not_exists] at hq
      obtain ⟨l, s1, hs, hl1, hl2⟩ := hq
      have h1 : Prompt c s [l] s1 := .snoc .nil hs (fun e => absurd e hl1)
      have hsub : submitted (ls ++ [l]) = submitted ls := by rw [submitted_append, submitted_other l hl2, List.append_nil]
      have hn1 : ∀ n ∈ submitted (ls ++ [l]), n ≤ M := by rw [hsub]; exact hn
      have hp := prompt_pinv c M hf _ _ (h.append h1) hn1
      have hw1 := step_work c M s s1 l hp hs hl1 hl2
      obtain ⟨ls', s', h2, h3, h4, h5⟩ := ih (work s1) (by omega) _ s1 (h.append h1) hn1 rfl
      exact ⟨[l] ++ ls', s', h1.append h2, by rw [submitted_append, submitted_other l hl2, h3]; rfl, by omega, h5⟩

/-- When nobody can do anything, a millisecond can pass. -/
theorem quiet_tick (c : Cfg) (M : Nat) (hf : Fast c M) (s : St) (hi : Inv c s) (hp : PInv c M s) (hq : Quiet c s) :
    ∃ s', Step c s .tick s' ∧ s'.now = s.now + 1 := by
  obtain ⟨q1, q2, q3, q4, q5, q6⟩ := quiet_facts c M hf s hi hp hq
  refine ⟨_, .tick ?_ ?_, rfl⟩
  · intro d hd
    have hl : 0 < s.snd.left := by
      cases hsn : s.snd with
      | header l' d' n' => exact (hi.header _ _ _ hsn).1
      | body l' d' => exact hi.body' _ _ hsn
      | ended x => exact absurd hsn (hp.snd x)
      | ready => rw [hsn] at hd; cases hd
    obtain ⟨t, e, ht, hle⟩ := hp.sndTime d hd
    have := hf.out; have := hf.size
    have : c.rate * (s.now - t) < c.rate * c.limit := by omega
    have := Nat.lt_of_mul_lt_mul_left this
    omega
  · intro d hd
    cases hr : s.rcv with
    | body n l a g =>
      rw [hr] at hd; simp only [Rcv.due, Option.some.injEq] at hd
      have := q3 n l a g hr; have hle := hp.rcvTime n l a g hr
      have hc : s.credit = 0 := by
        rcases quiet_idle c M hf s hi hp hq with h | h
        · rw [h.2.2.2.2.1] at hr; cases hr
        · exact h
      have hn := hp.cur n (by rw [hr]; simp [current])
      have := hf.size
      have hlt : c.rate * (s.now - g) < c.rate * c.limit := by omega
      have := Nat.lt_of_mul_lt_mul_left hlt
      have := hi.body n l a g hr
      omega
    | header g => rw [hr] at hd; cases hd
    | alloc n a => rw [hr] at hd; cases hd
    | ended => rw [hr] at hd; cases hd

theorem can_wait (c : Cfg) (M : Nat) (hf : Fast c M) (ls : List Label) (s : St) (h : Prompt c init ls s)
    (hn : ∀ n ∈ submitted ls, n ≤ M) (t : Nat) :
    ∃ ls' s', Prompt c s ls' s' ∧ submitted ls' = [] ∧ s'.now = s.now + t := by
  induction t with
  | zero => exact ⟨[], s, .nil, rfl, rfl⟩
  | succ t ih =>
    obtain ⟨a, s1, h1, h2, h3⟩ := ih
    have hn1 : ∀ n ∈ submitted (ls ++ a), n ≤ M := by rw [submitted_append, h2, List.append_nil]; exact hn
    obtain ⟨b, s2, h4, h5, h6, hq⟩ := to_quiet c M hf _ _ s1 (h.append h1) hn1 rfl
    have hall := (h.append h1).append h4
    have hn2 : ∀ n ∈ submitted (ls ++ a ++ b), n ≤ M := by rw [submitted_append, h5, List.append_nil]; exact hn1
    obtain ⟨s3, hs, hnow⟩ := quiet_tick c M hf s2 (run_inv c _ _ hall.run) (prompt_pinv c M hf _ _ hall hn2) hq
    refine ⟨a ++ b ++ [.tick], s3, .snoc (h1.append h4) hs (fun _ => hq), ?_, by omega⟩
    rw [submitted_append, submitted_append, h2, h5]; rfl

/-! ## Runs by computation, for the examples -/

/-- Does this step if it is possible. -/
def exec (c : Cfg) (s : St) : Label → Option St
  | .submit n => some { s with todo := s.todo ++ [n] }
  | .begin =>
    match s.todo, s.snd with
    | n :: rest, .ready => some { s with todo := rest, snd := .header 4 (s.now + c.limit) n, wire := s.wire ++ [n] }
    | _, _ => none
  | .write k =>
    if 0 < k ∧ k ≤ s.snd.left ∧ s.out + k ≤ c.outCap then some { s with snd := s.snd.write c s.now k, out := s.out + k } else none
  | .carry k =>
    if 0 < k ∧ k ≤ s.out ∧ k ≤ s.credit ∧ s.inn + k ≤ c.inCap then
      some { s with out := s.out - k, credit := s.credit - k, inn := s.inn + k } else none
  | .read k =>
    if 0 < k ∧ k ≤ s.inn then
      match s.rcv, s.wire with
      | .header g, w =>
        if g + k < 4 then some { s with inn := s.inn - k, rcv := .header (g + k) }
        else if g + k = 4 then
          match w with
          | n :: rest => some { s with inn := s.inn - k, rcv := .alloc n s.now, wire := rest }
          | [] => none
        else none
      | .body n l a g, _ => if k ≤ l then some { s with inn := s.inn - k, rcv := .body n (l - k) a g } else none
      | _, _ => none
    else none
  | .grant =>
    match s.rcv with
    | .alloc n a => some { s with rcv := .body n n a s.now }
    | _ => none
  | .deliver =>
    match s.rcv with
    | .body n 0 a g => some { s with rcv := .header 0, got := s.got ++ [⟨n, a, g, s.now⟩] }
    | _ => none
  | .sndTimeout =>
    match s.snd.due with
    | some d => if d ≤ s.now ∧ s.out = c.outCap then some { s with snd := .ended s.snd.rest } else none
    | none => none
  | .rcvTimeout =>
    match s.rcv with
    | .body _ l _ g => if 0 < l ∧ g + c.limit ≤ s.now ∧ s.inn = 0 then some { s with rcv := .ended } else none
    | _ => none
  | .tick =>
    if (s.snd.due.all fun d => decide (s.now < d + c.late)) ∧ ((s.rcv.due c).all fun d => decide (s.now < d + c.late)) then
      some { s with now := s.now + 1, credit := c.rate }
    else none

theorem exec_step (c : Cfg) (s s' : St) (l : Label) (h : exec c s l = some s') : Step c s l s' := by
  cases l with
  | submit n => simp only [exec, Option.some.injEq] at h; subst h; exact .submit n
  | begin =>
    simp only [exec] at h
    split at h
    · rename_i n rest ht hsn; cases h; exact .begin n rest ht hsn
    · cases h
  | write k =>
    simp only [exec] at h
    split at h
    · rename_i hc; cases h; exact .write k hc.1 hc.2.1 hc.2.2
    · cases h
  | carry k =>
    simp only [exec] at h
    split at h
    · rename_i hc; cases h; exact .carry k hc.1 hc.2.1 hc.2.2.1 hc.2.2.2
    · cases h
  | read k =>
    simp only [exec] at h
    split at h
    · rename_i hc
      split at h
      · rename_i g hr
        split at h
        · rename_i hg; cases h; exact .readHeader k g hc.1 hc.2 hr hg
        · split at h
          · rename_i hg
            split at h
            · rename_i n rest hw; cases h; exact .readLength k g n rest hc.1 hc.2 hr hg hw
            · cases h
          · cases h
      · rename_i n l a g hr
        split at h
        · rename_i hl; cases h; exact .readBody k n l a g hc.1 hc.2 hr hl
        · cases h
      · cases h
    · cases h
  | grant =>
    simp only [exec] at h
    split at h
    · rename_i n a hr; cases h; exact .grant n a hr
    · cases h
  | deliver =>
    simp only [exec] at h
    split at h
    · rename_i n a g hr; cases h; exact .deliver n a g hr
    · cases h
  | sndTimeout =>
    simp only [exec] at h
    split at h
    · rename_i d hd
      split at h
      · rename_i hc; cases h; exact .sndTimeout d hd hc.1 hc.2
      · cases h
    · cases h
  | rcvTimeout =>
    simp only [exec] at h
    split at h
    · rename_i n l a g hr
      split at h
      · rename_i hc; cases h; exact .rcvTimeout n l a g hr hc.1 hc.2.1 hc.2.2
      · cases h
    · cases h
  | tick =>
    simp only [exec] at h
    split at h
    · rename_i hc; cases h
      refine .tick ?_ ?_
      · intro d hd; have := hc.1; rw [hd] at this; simpa using this
      · intro d hd; have := hc.2; rw [hd] at this; simpa using this
    · cases h

def execAll (c : Cfg) : St → List Label → Option St
  | s, [] => some s
  | s, l :: ls => (exec c s l).bind fun s1 => execAll c s1 ls

theorem Run.append {c : Cfg} {s s1 s2 : St} {a b : List Label} (h1 : Run c s a s1) (h2 : Run c s1 b s2) : Run c s (a ++ b) s2 := by
  induction h2 with
  | nil => simpa using h1
  | snoc _ hs ih => rw [← List.append_assoc]; exact .snoc ih hs

theorem execAll_run (c : Cfg) (ls : List Label) : ∀ (s s' : St), execAll c s ls = some s' → Run c s ls s' := by
  induction ls with
  | nil => intro s s' h; cases h; exact .nil
  | cons l ls ih =>
    intro s s' h
    simp only [execAll, Option.bind_eq_some_iff] at h
    obtain ⟨s1, h1, h2⟩ := h
    exact Run.append (.snoc .nil (exec_step c s s1 l h1)) (ih s1 s' h2)

theorem execAll_sat (c : Cfg) (ls : List Label) (p : St → Prop) [DecidablePred p]
    (h : ((execAll c init ls).any fun s => decide (p s)) = true) : ∃ s, Run c init ls s ∧ p s := by
  cases he : execAll c init ls with
  | none => rw [he] at h; cases h
  | some s => rw [he] at h; exact ⟨s, execAll_run c ls _ _ he, by simpa using h⟩

end Verif.Transfer
