import Verif.Model.Ident

/-!
# Properties C42 and C43: broker identifiers and the dialling rule
-/

namespace Verif.Props.Ident
open Verif BrokerId

/-! ## C42: text form -/

/-- No slash in a string. -/
def NoSlash (s : Str) : Prop := '/' ∉ s

/-- `split` cuts at the first slash. -/
theorem split_append (p r : Str) (h : NoSlash p) : split (p ++ '/' :: r) = p :: split r := by
  induction p with
  | nil => rw [List.nil_append, split, if_pos rfl]
  | cons c p ih =>
    have hc : c ≠ '/' := fun e => h (by rw [e]; exact List.mem_cons_self)
    rw [List.cons_append, split, if_neg hc, ih (fun hm => h (List.mem_cons_of_mem _ hm))]

theorem split_noSlash (p : Str) (h : NoSlash p) : split p = [p] := by
  induction p with
  | nil => rfl
  | cons c p ih =>
    have hc : c ≠ '/' := fun e => h (by rw [e]; exact List.mem_cons_self)
    rw [split, if_neg hc, ih (fun hm => h (List.mem_cons_of_mem _ hm))]

/-- A string with a slash, cut at its first slash. -/
theorem first_slash : ∀ {s : Str}, '/' ∈ s → ∃ p r, s = p ++ '/' :: r ∧ NoSlash p
  | c :: cs, h => by
    by_cases hc : c = '/'
    · exact ⟨[], cs, by rw [hc]; rfl, by simp [NoSlash]⟩
    · obtain ⟨p, r, h1, h2⟩ := first_slash (s := cs) (by
        rcases List.mem_cons.1 h with h | h
        · exact absurd h.symm hc
        · exact h)
      refine ⟨c :: p, r, by rw [h1]; rfl, ?_⟩
      intro hm
      rcases List.mem_cons.1 hm with h | h
      · exact hc h.symm
      · exact h2 h

/-- **C42.** Parsing the displayed form gives the identifier back, if its endpoints contain no slash. -/
theorem C42_round_trip (b : BrokerId) (h1 : NoSlash b.pub) (h2 : NoSlash b.priv) :
    parse b.display = some b := by
  unfold parse display
  rw [split_append _ _ h1, split_noSlash _ h2]

/-- **C42.** Two identifiers without slashes in their endpoints and with the same displayed form are
equal. -/
theorem C42_display_injective (a b : BrokerId) (ha : NoSlash a.pub) (ha' : NoSlash a.priv)
    (hb : NoSlash b.pub) (hb' : NoSlash b.priv) (h : a.display = b.display) : a = b := by
  have h1 := C42_round_trip a ha ha'
  rw [h, C42_round_trip b hb hb'] at h1
  exact (Option.some.inj h1).symm

/-- **C42.** Parsing fails exactly when the text has no slash; a parsed endpoint has no slash, and the
first one is the text before the first slash. -/
theorem C42_parse_fails_iff (s : Str) : parse s = none ↔ NoSlash s := by
  constructor
  · intro h hm
    obtain ⟨p, r, rfl, hp⟩ := first_slash hm
    unfold parse at h
    rw [split_append _ _ hp] at h
    by_cases hr : '/' ∈ r
    · obtain ⟨p', r', rfl, hp'⟩ := first_slash hr
      rw [split_append _ _ hp'] at h
      simp at h
    · rw [split_noSlash _ hr] at h
      simp at h
  · intro h
    unfold parse
    rw [split_noSlash _ h]

/-- What parsing returns, for every text: the text up to the first slash, and from there up to the
second slash or the end. -/
theorem C42_parse_spec (s : Str) (b : BrokerId) :
    parse s = some b ↔
      NoSlash b.pub ∧ NoSlash b.priv ∧ (s = b.display ∨ ∃ rest, s = b.display ++ '/' :: rest) := by
  constructor
  · intro h
    have hs : '/' ∈ s := by
      refine Decidable.byContradiction fun hn => ?_
      rw [(C42_parse_fails_iff s).2 hn] at h
      simp at h
    obtain ⟨p, r, rfl, hp⟩ := first_slash hs
    unfold parse at h
    rw [split_append _ _ hp] at h
    by_cases hr : '/' ∈ r
    · obtain ⟨p', r', rfl, hp'⟩ := first_slash hr
      rw [split_append _ _ hp'] at h
      simp only [Option.some.injEq] at h
      subst h
      refine ⟨hp, hp', Or.inr ⟨r', ?_⟩⟩
      simp [display]
    · rw [split_noSlash _ hr] at h
      simp only [Option.some.injEq] at h
      subst h
      exact ⟨hp, hr, Or.inl rfl⟩
  · rintro ⟨h1, h2, rfl | ⟨rest, rfl⟩⟩
    · exact C42_round_trip b h1 h2
    · unfold parse display
      rw [List.append_assoc, List.cons_append, split_append _ _ h1, split_append _ _ h2]

/-- The condition on slashes is needed: these two identifiers have the same text. -/
theorem C42_slash_needed :
    ∃ a b : BrokerId, a ≠ b ∧ a.display = b.display ∧ parse a.display ≠ some a :=
  ⟨⟨['a', '/', 'b'], ['c']⟩, ⟨['a'], ['b', '/', 'c']⟩, by decide, rfl, by decide⟩

/-- A case with realistic endpoints. -/
example : parse (BrokerId.display ⟨"10.0.0.1:1738".toList, "10.0.0.1:1739".toList⟩) =
    some ⟨"10.0.0.1:1738".toList, "10.0.0.1:1739".toList⟩ :=
  C42_round_trip _ (by unfold NoSlash; decide) (by unfold NoSlash; decide)

/-! ## C43: who dials -/

theorem lt_asymm {a b : BrokerId} (h : a < b) : ¬ b < a := by
  rintro (h' | ⟨e', h'⟩) <;> rcases h with h | ⟨e, h⟩
  · exact List.lt_asymm h h'
  · rw [e] at h'; exact List.lt_irrefl _ h'
  · rw [e'] at h; exact List.lt_irrefl _ h
  · exact List.lt_asymm h h'

theorem str_tri (a b : Str) : a < b ∨ a = b ∨ b < a := by
  by_cases h1 : a < b
  · exact Or.inl h1
  · by_cases h2 : b < a
    · exact Or.inr (Or.inr h2)
    · exact Or.inr (Or.inl (List.le_antisymm (List.not_lt.1 h2) (List.not_lt.1 h1)))

theorem lt_tri {a b : BrokerId} (h : a ≠ b) : a < b ∨ b < a := by
  rcases str_tri a.pub b.pub with h1 | h1 | h1
  · exact Or.inl (Or.inl h1)
  · rcases str_tri a.priv b.priv with h2 | h2 | h2
    · exact Or.inl (Or.inr ⟨h1, h2⟩)
    · exfalso
      cases a; cases b
      simp_all
    · exact Or.inr (Or.inr ⟨h1.symm, h2⟩)
  · exact Or.inr (Or.inl h1)

/-- Broker `a`, seeing `others` in discovery and connected to `connected`, dials `b`. -/
def Dials (a : BrokerId) (others connected : List BrokerId) (b : BrokerId) : Prop :=
  b ∈ toDial a others connected

/-- **C43.** Of two different brokers that see each other in discovery and are not connected, exactly one
dials the other. -/
theorem C43_exactly_one_dials (a b : BrokerId) (hne : a ≠ b) (oa ca ob cb : List BrokerId)
    (hb : b ∈ oa) (hb' : b ∉ ca) (ha : a ∈ ob) (ha' : a ∉ cb) :
    (Dials a oa ca b ∧ ¬ Dials b ob cb a) ∨ (¬ Dials a oa ca b ∧ Dials b ob cb a) := by
  simp only [Dials, toDial, List.mem_filter, List.contains_eq_mem, Bool.not_eq_true', decide_eq_false_iff_not,
    hb, hb', ha, ha', not_false_eq_true, and_true, true_and]
  rcases lt_tri hne with h | h
  · exact Or.inl ⟨lt_asymm h, fun h' => h' h⟩
  · exact Or.inr ⟨fun h' => h' h, lt_asymm h⟩

/-- **C43.** A broker dials only brokers that discovery lists and that it is not connected to. -/
theorem C43_never_dials_connected (a : BrokerId) (others connected : List BrokerId) (b : BrokerId)
    (h : Dials a others connected b) : b ∈ others ∧ b ∉ connected := by
  simp only [Dials, toDial, List.mem_filter, List.contains_eq_mem, Bool.not_eq_true', decide_eq_false_iff_not] at h
  exact h.1

/-- **C43.** A broker connected to everybody does not dial. -/
theorem C43_mesh_is_quiet (a : BrokerId) (others connected : List BrokerId)
    (h : ∀ b ∈ others, b ∈ connected) : toDial a others connected = [] := by
  rw [List.eq_nil_iff_forall_not_mem]
  intro b hb
  have := C43_never_dials_connected a others connected b hb
  exact this.2 (h b this.1)

/-- **C43.** In any set of brokers that all see each other, one round of heartbeats joins every pair
exactly once: each pair that is not connected is dialled by exactly one of the two. -/
theorem C43_round (all : List BrokerId) (conn : BrokerId → List BrokerId)
    (hsym : ∀ a b, b ∈ conn a ↔ a ∈ conn b) (a b : BrokerId) (ha : a ∈ all) (hb : b ∈ all) (hne : a ≠ b) :
    let dials := fun x y => Dials x (all.filter fun z => z ≠ x) (conn x) y
    (b ∈ conn a → ¬ dials a b ∧ ¬ dials b a) ∧
    (b ∉ conn a → (dials a b ∧ ¬ dials b a) ∨ (¬ dials a b ∧ dials b a)) := by
  intro dials
  constructor
  · intro h
    exact ⟨fun hd => (C43_never_dials_connected _ _ _ _ hd).2 h,
      fun hd => (C43_never_dials_connected _ _ _ _ hd).2 ((hsym a b).1 h)⟩
  · intro h
    refine C43_exactly_one_dials a b hne _ _ _ _ ?_ h ?_ (fun h' => h ((hsym a b).2 h'))
    · simp [hb, hne.symm]
    · simp [ha, hne]

/-- A case: three brokers, the first two already connected. -/
example :
    let a : BrokerId := ⟨['a'], ['1']⟩
    let b : BrokerId := ⟨['a'], ['2']⟩
    let c : BrokerId := ⟨['b'], ['0']⟩
    toDial a [b, c] [b] = [c] ∧ toDial b [a, c] [a] = [c] ∧ toDial c [a, b] [] = [] := by
  decide

end Verif.Props.Ident
