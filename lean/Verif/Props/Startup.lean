import Verif.Model.Startup
import Verif.Props.Ident

/-!
# C95: brokers started from one configuration are different brokers
-/

namespace Verif.Props.Startup
open Verif Verif.Startup

/-- The text mentions `local_ip`. -/
def Mentions (s : Str) : Prop := ∃ p q, s = p ++ "local_ip".toList ++ q

theorem placeholder_eq : "local_ip".toList = placeholder := by decide +kernel

/-- How often it is replaced. -/
def count : Nat → Str → Nat
  | 0, _ => 0
  | _ + 1, [] => 0
  | n + 1, c :: s => if placeholder.isPrefixOf (c :: s) then 1 + count n ((c :: s).drop placeholder.length) else count n s

/-- How much else there is. -/
def rest : Nat → Str → Nat
  | 0, s => s.length
  | _ + 1, [] => 0
  | n + 1, c :: s => if placeholder.isPrefixOf (c :: s) then rest n ((c :: s).drop placeholder.length) else 1 + rest n s

theorem replace_length (ip : Str) (n : Nat) (s : Str) : (replace ip n s).length = rest n s + count n s * ip.length := by
  induction n generalizing s with
  | zero => simp [replace, rest, count]
  | succ n ih =>
    cases s with
    | nil => simp [replace, rest, count]
    | cons c s =>
      by_cases h : placeholder.isPrefixOf (c :: s) = true
      · simp only [replace, rest, count, if_pos h, List.length_append, ih, Nat.add_mul, Nat.one_mul]; omega
      · simp only [replace, rest, count, if_neg h, List.length_cons, ih]; omega

theorem replace_inj (ip ip' : Str) (n : Nat) (s : Str) (hl : ip.length = ip'.length) (hc : 0 < count n s)
    (h : replace ip n s = replace ip' n s) : ip = ip' := by
  induction n generalizing s with
  | zero => simp [count] at hc
  | succ n ih =>
    cases s with
    | nil => simp [count] at hc
    | cons c s =>
      by_cases hp : placeholder.isPrefixOf (c :: s) = true
      · simp only [replace, if_pos hp] at h
        exact (List.append_inj h hl).1
      · simp only [replace, if_neg hp, List.cons.injEq, true_and] at h
        simp only [count, if_neg hp] at hc
        exact ih s hc h

theorem count_pos (p q : Str) (n : Nat) (hn : (p ++ placeholder ++ q).length ≤ n) : 0 < count n (p ++ placeholder ++ q) := by
  induction p generalizing n with
  | nil =>
    cases n with
    | zero => simp [placeholder] at hn
    | succ n =>
      obtain ⟨a, t, e⟩ : ∃ a t, [] ++ placeholder ++ q = a :: t := ⟨_, _, rfl⟩
      have hp : placeholder.isPrefixOf (a :: t) = true := List.isPrefixOf_iff_prefix.2 ⟨q, e⟩
      rw [e]
      simp only [count, if_pos hp]
      omega
  | cons c p ih =>
    cases n with
    | zero => simp at hn
    | succ n =>
      have e : (c :: p) ++ placeholder ++ q = c :: (p ++ placeholder ++ q) := rfl
      rw [e] at hn ⊢
      by_cases hp : placeholder.isPrefixOf (c :: (p ++ placeholder ++ q)) = true
      · simp only [count, if_pos hp]; omega
      · simp only [count, if_neg hp]
        exact ih n (by simpa using hn)

/-- Replacing a placeholder that is there by different texts gives different texts. -/
theorem replace_ne {ip ip' s : Str} (hm : Mentions s) (hne : ip ≠ ip') : replace ip s.length s ≠ replace ip' s.length s := by
  intro h
  obtain ⟨p, q, rfl⟩ := hm
  rw [placeholder_eq] at h
  have hc := count_pos p q _ (Nat.le_refl _)
  have hl := congrArg List.length h
  rw [replace_length, replace_length] at hl
  have hl' : ip.length = ip'.length := by
    have : count (p ++ placeholder ++ q).length (p ++ placeholder ++ q) * ip.length =
        count (p ++ placeholder ++ q).length (p ++ placeholder ++ q) * ip'.length := Nat.add_left_cancel hl
    exact Nat.eq_of_mul_eq_mul_left hc this
  exact hne (replace_inj ip ip' _ _ hl' hc h)

/-- Without the placeholder nothing happens. -/
theorem replace_id (ip : Str) (n : Nat) (s : Str) (h : ¬ Mentions s) : replace ip n s = s := by
  induction n generalizing s with
  | zero => rfl
  | succ n ih =>
    cases s with
    | nil => rfl
    | cons c s =>
      have hp : ¬ placeholder.isPrefixOf (c :: s) = true := fun hp => by
        obtain ⟨t, e⟩ := List.isPrefixOf_iff_prefix.1 hp
        exact h ⟨[], t, by rw [placeholder_eq]; exact e.symm⟩
      simp only [replace, if_neg hp]
      rw [ih s fun ⟨p, q, e⟩ => h ⟨c :: p, q, by rw [e]; rfl⟩]

variable {M : Type} [DecidableEq M]

/-- What a start yields. -/
theorem new_some {r : Run} {l : Lib} {taken : List Sock} {c : Conf} {ip : Str} {i : Inst} (hl : l.ip = some ip)
    (h : new r l taken c = some i) :
    i.id = ⟨replace ip c.pubAdv.length c.pubAdv, replace ip c.privAdv.length c.privAdv⟩ ∧
    (∃ a p, r.parse (replace ip c.pubBind.length c.pubBind) = some (a, p) ∧ i.user = ⟨r.userUdp, a, p⟩) ∧
    ∀ s ∈ taken, i.user.clash s = false := by
  simp only [new, hl, listen, Option.bind_eq_bind, Option.bind_some] at h
  split at h
  · split at h
    · cases hp : r.parse (replace ip c.pubBind.length c.pubBind) with
      | none => rw [hp] at h; cases h
      | some x =>
        obtain ⟨a, p⟩ := x
        rw [hp] at h
        simp only [Option.bind_some] at h
        by_cases hb : (l.bindUser && !(taken.any (Sock.clash ⟨r.userUdp, a, p⟩))) = true
        · rw [if_pos hb] at h
          simp only [Option.bind_some] at h
          cases hq : r.parse (replace ip c.privBind.length c.privBind) with
          | none => rw [hq] at h; cases h
          | some y =>
            obtain ⟨a', p'⟩ := y
            rw [hq] at h
            simp only [Option.bind_some] at h
            split at h
            · simp only [Option.bind_some, Option.some.injEq] at h
              subst h
              refine ⟨rfl, ⟨a, p, rfl, rfl⟩, fun s hs => ?_⟩
              simp only [Bool.and_eq_true, Bool.not_eq_true', List.any_eq_false] at hb
              exact Bool.eq_false_iff.2 (hb.2 s hs)
            · cases h
        · rw [if_neg hb] at h; cases h
    · cases h
  · cases h

theorem clash_self (s : Sock) : s.clash s = true := by simp [Sock.clash]

/-- On one machine there is at most one broker, and the identities are as configured. -/
theorem steps_inv {r : Run} {c : Conf} {ip : M → Str} {s : St M} (h : Steps r c ip s) :
    (∀ x ∈ s.up, x.2.id = ⟨replace (ip x.1) c.pubAdv.length c.pubAdv, replace (ip x.1) c.privAdv.length c.privAdv⟩ ∧
      ∃ a p, r.parse (replace (ip x.1) c.pubBind.length c.pubBind) = some (a, p) ∧ x.2.user = ⟨r.userUdp, a, p⟩) ∧
    s.up.Pairwise (fun x y => x.1 ≠ y.1) := by
  induction h with
  | init => exact ⟨by simp, .nil⟩
  | @snoc s s' h hs ih =>
    obtain ⟨ih1, ih2⟩ := ih
    cases hs with
    | start m l i hl hn =>
      obtain ⟨h1, ⟨a, p, h2, h3⟩, h4⟩ := new_some hl hn
      refine ⟨fun x hx => ?_, .cons (fun y hy e => ?_) ih2⟩
      · rcases List.mem_cons.1 hx with rfl | hx
        · exact ⟨h1, a, p, h2, h3⟩
        · exact ih1 x hx
      · obtain ⟨_, a', p', k2, k3⟩ := ih1 y hy
        have e : m = y.1 := e
        have hy' : y.2.user ∈ s.taken m := by
          refine List.mem_append_left _ (List.mem_flatMap.2 ⟨y, List.mem_filter.2 ⟨hy, by simp [e]⟩, by simp⟩)
        have := h4 _ hy'
        rw [← e, h2] at k2
        obtain ⟨rfl, rfl⟩ := Prod.mk.inj (Option.some.inj k2)
        rw [k3, h3, clash_self] at this
        cases this
    | stop p q x e =>
      refine ⟨fun y hy => ih1 y ?_, ?_⟩
      · rw [e]
        rcases List.mem_append.1 hy with hy | hy
        · exact List.mem_append_left _ hy
        · exact List.mem_append_right _ (List.mem_cons_of_mem _ hy)
      · rw [e] at ih2
        exact ih2.sublist (List.Sublist.append_left (List.sublist_cons_self _ _) _)
    | others o => exact ⟨ih1, ih2⟩

/-- **C95.** All brokers are started with one configuration, on machines with different addresses, and an advertised endpoint
mentions `local_ip`. Whatever brokers are started and stopped, those that are running at the same time have different
identities. -/
theorem C95_distinct (r : Run) (c : Conf) (ip : M → Str) (hip : ∀ m m', ip m = ip m' → m = m')
    (hm : Mentions c.pubAdv ∨ Mentions c.privAdv) (s : St M) (h : Steps r c ip s) (p q o : List (M × Inst)) (x y : M × Inst)
    (hs : s.up = p ++ x :: q ++ y :: o) : x.2.id ≠ y.2.id := by
  obtain ⟨h1, h2⟩ := steps_inv h
  rw [hs] at h1 h2
  have hne : x.1 ≠ y.1 := (List.pairwise_append.1 h2).2.2 x (by simp) y (by simp)
  have hi : ip x.1 ≠ ip y.1 := fun e => hne (hip _ _ e)
  rw [(h1 x (by simp)).1, (h1 y (by simp)).1]
  intro e
  injection e with e1 e2
  rcases hm with hm | hm
  · exact replace_ne hm hi e1
  · exact replace_ne hm hi e2

theorem replace_noSlash {ip : Str} (hi : '/' ∉ ip) (n : Nat) (s : Str) (hs : '/' ∉ s) : '/' ∉ replace ip n s := by
  induction n generalizing s with
  | zero => exact hs
  | succ n ih =>
    cases s with
    | nil => exact hs
    | cons c s =>
      by_cases hp : placeholder.isPrefixOf (c :: s) = true
      · simp only [replace, if_pos hp]
        intro h
        rcases List.mem_append.1 h with h | h
        · exact hi h
        · exact ih _ (fun h => hs (List.mem_of_mem_drop h)) h
      · simp only [replace, if_neg hp]
        intro h
        rcases List.mem_cons.1 h with h | h
        · exact hs (h ▸ List.mem_cons_self)
        · exact ih s (fun h => hs (List.mem_cons_of_mem _ h)) h

/-- They are also different in the discovery store, which knows them by their text: if there is no slash in the advertised
endpoints, nor in the addresses, the texts are different. -/
theorem C95_distinct_in_store (r : Run) (c : Conf) (ip : M → Str) (hip : ∀ m m', ip m = ip m' → m = m')
    (hm : Mentions c.pubAdv ∨ Mentions c.privAdv) (h1 : '/' ∉ c.pubAdv) (h2 : '/' ∉ c.privAdv) (h3 : ∀ m, '/' ∉ ip m)
    (s : St M) (h : Steps r c ip s) (p q o : List (M × Inst)) (x y : M × Inst) (hs : s.up = p ++ x :: q ++ y :: o) :
    x.2.id.display ≠ y.2.id.display := by
  have good : ∀ z ∈ s.up, '/' ∉ z.2.id.pub ∧ '/' ∉ z.2.id.priv := by
    intro z hz
    rw [((steps_inv h).1 z hz).1]
    exact ⟨replace_noSlash (h3 _) _ _ h1, replace_noSlash (h3 _) _ _ h2⟩
  have hx := good x (by rw [hs]; simp)
  have hy := good y (by rw [hs]; simp)
  exact fun e => C95_distinct r c ip hip hm s h p q o x y hs (Ident.C42_display_injective _ _ hx.1 hx.2 hy.1 hy.2 e)

/-- The placeholder is needed: without it all brokers are the same one. -/
theorem C95_needed (r : Run) (c : Conf) (ip : M → Str) (hm : ¬ Mentions c.pubAdv ∧ ¬ Mentions c.privAdv) (s : St M)
    (h : Steps r c ip s) (x : M × Inst) (hx : x ∈ s.up) : x.2.id = ⟨c.pubAdv, c.privAdv⟩ := by
  rw [((steps_inv h).1 x hx).1, replace_id _ _ _ hm.1, replace_id _ _ _ hm.2]

/-! ## A case -/

/-- The defaults of `cdn-broker/src/binaries/broker.rs:32-47`. -/
def defaults : Conf :=
  ⟨"local_ip:1738".toList, "0.0.0.0:1738".toList, "local_ip:1739".toList, "0.0.0.0:1739".toList⟩

def ips : Bool → Str
  | false => "10.0.0.7".toList
  | true => "10.0.0.12".toList

def run : Run := ⟨false, false, fun s => if s = "0.0.0.0:1738".toList then some (none, 1738) else
  if s = "0.0.0.0:1739".toList then some (none, 1739) else none⟩

def first : Inst := ⟨⟨"10.0.0.7:1738".toList, "10.0.0.7:1739".toList⟩, ⟨false, none, 1738⟩, ⟨false, none, 1739⟩⟩
def second : Inst := ⟨⟨"10.0.0.12:1738".toList, "10.0.0.12:1739".toList⟩, ⟨false, none, 1738⟩, ⟨false, none, 1739⟩⟩

/-- Two machines; a second broker on the first one does not start. -/
example : Steps run defaults ips ⟨[(true, second), (false, first)], fun _ => []⟩ ∧
    new run ⟨some (ips false), true, true, true, true⟩ (St.taken ⟨[(true, second), (false, first)], fun _ => []⟩ false) defaults
      = none ∧ Mentions defaults.pubAdv ∧ '/' ∉ defaults.pubAdv ∧ '/' ∉ defaults.privAdv ∧
    ∀ m, '/' ∉ ips m := by
  refine ⟨.snoc (.snoc .init (.start _ false ⟨some (ips false), true, true, true, true⟩ first rfl (by decide +kernel)))
    (.start _ true ⟨some (ips true), true, true, true, true⟩ second rfl (by decide +kernel)), by decide +kernel,
    ⟨[], ":1738".toList, rfl⟩, by decide +kernel, by decide +kernel, by decide +kernel⟩

end Verif.Props.Startup
