import Verif.Model.Checking
import Verif.Props.Discovery

/-!
# Property C111: checking a key while the whitelist is replaced
-/

namespace Verif.Props.Checking
open Verif Verif.Disc Verif.Props.Ident Verif.Props.Discovery

/-- The whitelist after any steps: that of the last update among them, or the one before. -/
theorem redis_whitelist (global : Bool) (s : Redis) (mid : List RLabel) :
    (s.run global mid).1.whitelist = s.whitelist ∨
    ∃ ks, RLabel.setWhitelist ks ∈ mid ∧ (s.run global mid).1.whitelist = FSet.empty.insertMany ks := by
  induction mid generalizing s with
  | nil => exact Or.inl rfl
  | cons l mid ih =>
    simp only [Redis.run]
    rcases ih (s.step global l).1 with h | ⟨ks, h1, h2⟩
    · rw [h]
      by_cases hl : RLabel.NoWhitelist l
      · left
        have := redis_keeps_whitelist global s [l] (fun x hx => by rw [List.mem_singleton.1 hx]; exact hl)
        simpa only [Redis.run] using this
      · cases l with
        | setWhitelist ks => exact Or.inr ⟨ks, List.mem_cons_self, rfl⟩
        | _ => exact absurd trivial hl
    · exact Or.inr ⟨ks, List.mem_cons_of_mem _ h1, h2⟩

/-- **C111, Redis.** A whitelist `w` is in force (not empty); others do anything while the call runs. A key in `w` and in every list set meanwhile is
allowed; a key in none of them is refused. Missing against C111: an update to the
empty list, which admits everybody (`C111_redis_false`). -/
theorem C111_redis_partial (global : Bool) (s : Redis) (w : List Bytes) (hw : w ≠ []) (ls mid : List RLabel)
    (hls : ∀ l ∈ ls, RLabel.NoWhitelist l) (k : Bytes) :
    let s1 := ((s.setWhitelist w).run global ls).1
    (k ∈ w → (∀ ks, RLabel.setWhitelist ks ∈ mid → k ∈ ks) → s1.checkAt global mid k = true) ∧
    (k ∉ w → (∀ ks, RLabel.setWhitelist ks ∈ mid → k ∉ ks) → s1.checkAt global mid k = false) := by
  intro s1
  have h1 : s1.whitelist = FSet.empty.insertMany w := redis_keeps_whitelist global _ ls hls
  have hne : ¬ s1.whitelist.isEmpty = true := by
    rw [h1, FSet.isEmpty_iff]
    intro h
    obtain ⟨a, ha⟩ := List.exists_mem_of_ne_nil _ hw
    exact h a (by simp [ha])
  have hm : (s1.run global mid).1.whitelist = FSet.empty.insertMany w ∨
      ∃ ks, RLabel.setWhitelist ks ∈ mid ∧ (s1.run global mid).1.whitelist = FSet.empty.insertMany ks := by
    have := redis_whitelist global s1 mid
    rwa [h1] at this
  unfold Redis.checkAt
  rw [if_neg hne]
  refine ⟨fun hk hall => ?_, fun hk hall => ?_⟩
  · rcases hm with h | ⟨ks, h2, h⟩
    · rw [h]; simpa using hk
    · rw [h]; simpa using hall ks h2
  · rcases hm with h | ⟨ks, h2, h⟩
    · rw [h]; simpa using hk
    · rw [h]; simpa using hall ks h2

/-- Redis: the answer is that of an undisturbed call at its first or at its second command, if no update to
the empty list comes in between. -/
theorem C111_redis_some_moment_partial (global : Bool) (s : Redis) (mid : List RLabel)
    (hne : RLabel.setWhitelist [] ∉ mid) (k : Bytes) :
    s.checkAt global mid k = s.checkWhitelist k ∨
    s.checkAt global mid k = (s.run global mid).1.checkWhitelist k := by
  unfold Redis.checkAt Redis.checkWhitelist
  by_cases h : s.whitelist.isEmpty = true
  · left; rw [if_pos h, if_pos h]
  · right
    rw [if_neg h, if_neg]
    rcases redis_whitelist global s mid with h1 | ⟨ks, h1, h2⟩
    · rwa [h1]
    · rw [h2, FSet.isEmpty_iff]
      cases ks with
      | nil => exact absurd h1 hne
      | cons a ks => intro h3; exact h3 a (by simp)

/-- **C111 is false** of Redis when the whitelist is being switched off (emptied, which admits everybody,
`C56_redis_false`): a key that was allowed before and is allowed after is refused. -/
theorem C111_redis_false :
    let s := Redis.new.setWhitelist [[1]]
    s.checkWhitelist [1] = true ∧ (s.run false [.setWhitelist []]).1.checkWhitelist [1] = true ∧
    s.checkAt false [.setWhitelist []] [1] = false := by decide +kernel

/-- **C111, SQLite.** An answer is that of an undisturbed call at the first or at the second statement; an
error means that the table was there at the first and not at the second, so an update was under way. -/
theorem C111_embedded_some_moment_partial (global : Bool) (s : Emb) (mid : List ELabel) (k : Bytes) :
    (∀ a, s.checkAt global mid k = some a →
      a = s.checkWhitelist k ∨ a = (s.run global mid).1.checkWhitelist k) ∧
    (s.checkAt global mid k = none → ELabel.whitelist .drop ∈ mid) := by
  unfold Emb.checkAt Emb.checkWhitelist
  cases hs : s.whitelist with
  | none => exact ⟨fun a h => by cases h; exact Or.inl rfl, nofun⟩
  | some w =>
    cases hm : (s.run global mid).1.whitelist with
    | none =>
      refine ⟨nofun, fun _ => ?_⟩
      -- only `DROP` removes the table
      have key : ∀ (mid : List ELabel) (s : Emb), s.whitelist ≠ none → (s.run global mid).1.whitelist = none →
          ELabel.whitelist .drop ∈ mid := by
        intro mid
        induction mid with
        | nil => intro s h1 h2; exact absurd h2 h1
        | cons l mid ih =>
          intro s h1 h2
          simp only [Emb.run] at h2
          by_cases h3 : (s.step global l).1.whitelist = none
          · by_cases hl : ELabel.NoWhitelist l
            · have := emb_keeps_whitelist global s [l] (fun x hx => by rw [List.mem_singleton.1 hx]; exact hl)
              simp only [Emb.run] at this
              rw [this] at h3
              exact absurd h3 h1
            · cases l with
              | whitelist st =>
                cases st with
                | drop => exact List.mem_cons_self
                | create => simp [Emb.step, Emb.wstep] at h3
                | insert ks =>
                  exfalso
                  simp only [Emb.step, Emb.wstep] at h3
                  split at h3
                  · exact h1 h3
                  · split at h3
                    · cases h3
                    · exact h1 h3
              | _ => exact absurd trivial hl
          · exact List.mem_cons_of_mem _ (ih _ h3 h2)
      exact key mid s (by rw [hs]; simp) hm
    | some w' => exact ⟨fun a h => by cases h; exact Or.inr rfl, nofun⟩

/-- **C111 is false** of SQLite: while the list `[1], [2]` is replaced by `[1], [3]`, the key `[1]` is refused
with an error or by the answer, and `[9]`, in neither, is allowed. -/
theorem C111_embedded_false :
    let s := (Emb.new.setWhitelist [[1], [2]]).1
    let up : List ELabel := [.whitelist .drop, .whitelist .create, .whitelist (.insert [[1], [3]])]
    s.checkAt false (up.take 1) [1] = none ∧ s.checkAt false (up.take 2) [1] = some false ∧
    (s.run false (up.take 1)).1.checkAt false (up.drop 1) [9] = some true ∧
    (s.run false up).1.checkWhitelist [1] = true ∧ (s.run false up).1.checkWhitelist [9] = false := by
  decide +kernel

/-- An update in the middle of a call, on Redis. -/
example :
    let s := (Redis.new.setWhitelist [[1], [2]])
    s.checkAt false [.heartbeat bA 1 60 100, .setWhitelist [[1], [3]]] [1] = true ∧
    s.checkAt false [.setWhitelist [[1], [3]]] [9] = false ∧
    s.checkAt false [.setWhitelist [[1], [3]]] [3] = true := by decide +kernel

end Verif.Props.Checking
