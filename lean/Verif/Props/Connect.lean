import Verif.Model.Connect

/-!
# C103: connecting by name
-/

namespace Verif.Props.Connect
open Verif.Connect

/-- The address is that of a server that answers the protocol's calls in time. -/
def Answers (p : Proto) (env : Env) (a : Addr) : Prop :=
  match p with
  | .tcp => (env.syn a).ok ∧ (env.syn a).ms ≤ 5000
  | .tcpTls => ((env.syn a).ok ∧ (env.syn a).ms ≤ 5000) ∧ (env.tls a).ok ∧ (env.tls a).ms ≤ 5000
  | .quic => ((env.handshake a).ok ∧ (env.handshake a).ms ≤ 5000) ∧ (env.stream a).ok ∧ (env.stream a).ms ≤ 5000

theorem attempt_connected (a b : Addr) (cs : List Call) :
    (attempt a cs).2 = .connected b ↔ a = b ∧ ∀ c ∈ cs, c.ok = true ∧ c.ms ≤ 5000 := by
  induction cs with
  | nil => simp [attempt]
  | cons c cs ih =>
    simp only [attempt, limit]
    by_cases h1 : 5000 < c.ms
    · rw [if_pos h1]
      simp only [reduceCtorEq, false_iff, List.mem_cons, not_and, forall_eq_or_imp]
      intro _ h; omega
    · rw [if_neg h1]
      by_cases h2 : c.ok = true
      · rw [if_pos h2]
        simp only [ih, List.mem_cons, forall_eq_or_imp]
        constructor
        · rintro ⟨h3, h4⟩; exact ⟨h3, ⟨h2, by omega⟩, h4⟩
        · rintro ⟨h3, -, h4⟩; exact ⟨h3, h4⟩
      · rw [if_neg h2]
        simp only [reduceCtorEq, false_iff, List.mem_cons, not_and, forall_eq_or_imp]
        intro _ h; exact absurd h.1 h2

theorem attempt_time (a : Addr) (cs : List Call) : (attempt a cs).1 ≤ 5000 * cs.length := by
  induction cs with
  | nil => simp [attempt]
  | cons c cs ih =>
    simp only [attempt, limit, List.length_cons]
    by_cases h1 : 5000 < c.ms
    · rw [if_pos h1]; simp only; omega
    · rw [if_neg h1]
      by_cases h2 : c.ok = true
      · rw [if_pos h2]; simp only; omega
      · rw [if_neg h2]; simp only; omega

theorem answers_iff (p : Proto) (env : Env) (a : Addr) :
    Answers p env a ↔ ∀ c ∈ calls p env a, c.ok = true ∧ c.ms ≤ 5000 := by
  cases p <;> simp [Answers, calls]

/-- `connect` gives a connection exactly if the first address the resolver names is an IPv4 address where a server answers
in time, and the connection is to that address. -/
theorem C103_connects_iff_partial (p : Proto) (env : Env) (name : List Char) (a : Addr) :
    (connect p env name).2 = .connected a ↔
      env.socket = true ∧ (∃ rest, (env.resolve name).2 = some (a :: rest)) ∧ a.v6 = false ∧ Answers p env a := by
  rw [answers_iff]
  simp only [connect]
  split
  · next h => simp [h]
  · next h => simp [h]
  · next b rest h =>
    by_cases hs : env.socket = false
    · rw [if_pos hs]; simp [hs]
    · rw [if_neg hs]
      have hs' : env.socket = true := by simpa using hs
      by_cases hv : b.v6 = true
      · rw [if_pos hv]
        simp only [reduceCtorEq, h, Option.some.injEq, List.cons.injEq, false_iff, not_and]
        rintro - ⟨_, rfl, -⟩ hv'
        rw [hv] at hv'; cases hv'
      · rw [if_neg hv]
        simp only [attempt_connected, h, Option.some.injEq, List.cons.injEq]
        constructor
        · rintro ⟨rfl, hc⟩
          exact ⟨hs', ⟨rest, rfl, rfl⟩, by simpa using hv, hc⟩
        · rintro ⟨-, ⟨_, rfl, -⟩, -, hc⟩
          exact ⟨rfl, hc⟩

/-- After the resolver has answered, `connect` takes at most five seconds with TCP, ten with the others. -/
theorem C103_time (p : Proto) (env : Env) (name : List Char) :
    (connect p env name).1 ≤ (env.resolve name).1 + (if p = .tcp then 5000 else 10000) := by
  simp only [connect]
  split
  · simp only; omega
  · simp only; omega
  · next a _ _ =>
    split
    · simp only; omega
    · split
      · simp only; omega
      · have := attempt_time a (calls p env a)
        cases p <;> simp [calls] at this ⊢ <;> omega

/-- What one would like: if the name has an address at which a server answers in time, and the resolver answers in
time, then `connect` gives a connection to such a server. -/
def Reaches (p : Proto) : Prop :=
  ∀ (env : Env) (name : List Char) (addrs : List Addr), env.socket = true → (env.resolve name).2 = some addrs →
    (∃ a ∈ addrs, Answers p env a) → ∃ a ∈ addrs, (connect p env name).2 = .connected a ∧ Answers p env a

/-- A machine with the name `localhost`: the resolver gives its IPv6 address first, then its IPv4 address. -/
def v6first (alive : Addr → Bool) (addrs : List Addr) : Env where
  resolve _ := (1, some addrs)
  socket := true
  syn a := ⟨1, alive a⟩
  tls a := ⟨1, alive a⟩
  handshake a := ⟨1, alive a⟩
  stream a := ⟨1, alive a⟩

def lo6 : Addr := ⟨true, 1, 1738⟩
def lo4 : Addr := ⟨false, 1, 1738⟩
def dead4 : Addr := ⟨false, 2, 1738⟩

/-- It is false, although the server answers at both addresses of the name: the first is IPv6. -/
theorem C103_false_v6 (p : Proto) : ∃ (env : Env) (name : List Char), env.socket = true ∧
    (env.resolve name).2 = some [lo6, lo4] ∧ Answers p env lo6 ∧ Answers p env lo4 ∧
    (connect p env name).2 = .connection := by
  refine ⟨v6first (fun _ => true) [lo6, lo4], [], rfl, rfl, ?_, ?_, ?_⟩ <;> cases p <;> simp [Answers, v6first] <;> rfl

/-- It is false also without IPv6: a server behind the second address is not tried when the first is dead. -/
theorem C103_false_second (p : Proto) : ∃ (env : Env) (name : List Char), env.socket = true ∧
    (env.resolve name).2 = some [dead4, lo4] ∧ Answers p env lo4 ∧ (connect p env name).2 = .connection := by
  refine ⟨v6first (fun a => a = lo4) [dead4, lo4], [], rfl, rfl, ?_, ?_⟩ <;> cases p <;> simp [Answers, v6first] <;> rfl

theorem C103_false (p : Proto) : ¬ Reaches p := by
  intro h
  obtain ⟨env, name, h1, h2, h3, h4, h5⟩ := C103_false_v6 p
  obtain ⟨a, -, h6, -⟩ := h env name _ h1 h2 ⟨lo6, by simp, h3⟩
  rw [h5] at h6
  cases h6

/-- If all addresses of the name are IPv4 and servers answer at all of them, it holds. -/
theorem C103_reaches_partial (p : Proto) (env : Env) (name : List Char) (addrs : List Addr) (hs : env.socket = true)
    (hr : (env.resolve name).2 = some addrs) (hne : addrs ≠ []) (h4 : ∀ a ∈ addrs, a.v6 = false)
    (ha : ∀ a ∈ addrs, Answers p env a) : ∃ a ∈ addrs, (connect p env name).2 = .connected a ∧ Answers p env a := by
  cases addrs with
  | nil => exact absurd rfl hne
  | cons a rest =>
    exact ⟨a, by simp, (C103_connects_iff_partial p env name a).2 ⟨hs, ⟨rest, hr⟩, h4 a (by simp), ha a (by simp)⟩, ha a (by simp)⟩

/-- Under a time limit of `t` around it, as in the client (ten seconds for both connections), it ends in time only if the
resolver answers in time: it ends by then, or with the resolver. -/
theorem C103_limited (t : Nat) (p : Proto) (env : Env) (name : List Char) :
    (underTimeout t p env name).1 ≤ max t (env.resolve name).1 ∧
      ((underTimeout t p env name).2 = none → t ≤ (underTimeout t p env name).1) := by
  simp only [underTimeout]
  by_cases h1 : (connect p env name).1 ≤ t
  · rw [if_pos h1]; exact ⟨by simp only; omega, by simp⟩
  · rw [if_neg h1]
    by_cases h2 : (connect p env name).1 = (env.resolve name).1
    · rw [if_pos h2]; exact ⟨by simp only; omega, by simp⟩
    · rw [if_neg h2]; exact ⟨by simp, by simp only; omega⟩

/-- So no time limit around `connect` keeps it from taking any given time: the resolver is waited for without an await. -/
theorem C103_blocks (t u : Nat) (p : Proto) : ∃ (env : Env) (name : List Char), u ≤ (underTimeout t p env name).1 := by
  refine ⟨{ v6first (fun _ => true) [] with resolve := fun _ => (max t u, none) }, [], ?_⟩
  show u ≤ (if max t u ≤ t then (max t u, some Res.parse) else if max t u = max t u then (max t u, some Res.parse)
    else (max t (max t u), none) : Nat × Option Res).1
  by_cases h : max t u ≤ t
  · rw [if_pos h]; simp only; omega
  · rw [if_neg h, if_pos rfl]; simp only; omega

/-- The listening side: with TCP at once, with TLS within five seconds; with QUIC within five seconds after the handshake,
for which there is no limit. -/
theorem C103_finalize (p : Proto) (tls handshake stream : Call) :
    (p = .tcp → finalize p tls handshake stream = (0, true)) ∧
    (p = .tcpTls → (finalize p tls handshake stream).1 ≤ 5000) ∧
    (p = .quic → (finalize p tls handshake stream).1 ≤ handshake.ms + 5000) := by
  refine ⟨?_, ?_, ?_⟩ <;> rintro rfl <;> simp only [finalize]
  all_goals have hl : limit = 5000 := rfl
  · by_cases h : limit < tls.ms
    · rw [if_pos h]; simp only; omega
    · rw [if_neg h]; simp only; omega
  · by_cases h : handshake.ok = false
    · rw [if_pos h]; simp only; omega
    · rw [if_neg h]
      by_cases h : limit < stream.ms
      · rw [if_pos h]; simp only; omega
      · rw [if_neg h]; simp only; omega

/-- What one would like of the listening side: it is done with a newcomer within ten seconds. -/
theorem C103_finalize_false (t : Nat) : ∃ tls handshake stream, t < (finalize .quic tls handshake stream).1 :=
  ⟨⟨0, true⟩, ⟨t + 1, false⟩, ⟨0, true⟩, by simp [finalize]⟩

/-- Non-trivial case: a name with two IPv4 addresses, TLS, a connection after six seconds. -/
example : connect .tcpTls (Env.mk (fun _ => (40, some [lo4, dead4])) true (fun _ => ⟨3000, true⟩) (fun _ => ⟨3000, true⟩)
    (fun _ => ⟨0, false⟩) (fun _ => ⟨0, false⟩)) [] = (6040, .connected lo4) := by decide

/-- Non-trivial case: the hypotheses of `C103_reaches_partial` can be met. -/
example : ∃ a ∈ [lo4, dead4], (connect .quic (v6first (fun _ => true) [lo4, dead4]) []).2 = .connected a :=
  ⟨lo4, by simp, by decide⟩

end Verif.Props.Connect
