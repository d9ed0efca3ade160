import Verif.Model.Trust

/-!
# Properties C92 to C94: whom a connection is made to
-/

set_option linter.unusedSectionVars false

namespace Verif.Props.Trust
open Verif Verif.Trust

variable {P D N K : Type} [DecidableEq P] [DecidableEq N] [DecidableEq K]

/-! ## Certificates -/

/-- If the key of `a` has only ever signed certificates for itself, every certificate with a path to `a` is for that key. -/
theorem path_pk (a : Cert N K) (pool : List (Cert N K)) (hp : ∀ i ∈ pool, i.signer = a.pk → i.pk = a.pk) :
    ∀ (n : Nat) (c : Cert N K), (c.signer = a.pk → c.pk = a.pk) → pathOk a pool n c = true → c.pk = a.pk := by
  intro n
  induction n with
  | zero =>
    intro c hc h
    simp only [pathOk, Bool.and_eq_true, beq_iff_eq] at h
    exact hc h.2
  | succ n ih =>
    intro c hc h
    simp only [pathOk, Bool.or_eq_true, Bool.and_eq_true, beq_iff_eq, List.any_eq_true] at h
    rcases h with h | ⟨i, hi, h⟩
    · exact hc h.2
    · exact hc (h.1.2.trans (ih i (hp i hi) h.2))

/-- A certificate an authority's key has signed for itself under the authority's name has a path. -/
theorem path_direct (a : Cert N K) (pool : List (Cert N K)) (n : Nat) (c : Cert N K) (h1 : c.issuer = a.subject)
    (h2 : c.signer = a.pk) : pathOk a pool n c = true := by
  cases n <;> simp [pathOk, h1, h2]

theorem path_empty (a : Cert N K) (n : Nat) (c : Cert N K) (h : pathOk a [] n c = true) : c.signer = a.pk := by
  cases n <;> simp [pathOk] at h <;> exact h.2

theorem generate_eq (fc fk : File N K) (leaf : Cert N K) (k : K) (h : generateCert fc fk = some (leaf, k)) :
    ∃ c, fc = .cert c ∧ fk = .key k ∧
      leaf = { subject := c.subject, issuer := c.subject, pk := k, signer := k, ca := false, names := ["espresso"] } := by
  cases fc with
  | cert c =>
    cases fk with
    | key k' =>
      simp only [generateCert, Option.some.injEq, Prod.mk.injEq] at h
      exact ⟨c, rfl, by rw [h.2], by rw [← h.1, h.2]⟩
    | cert _ => cases h
    | other => cases h
  | key _ => cases h
  | other => cases h

/-- What a process presents comes from the two files, or from the local authority. -/
theorem present_eq (cfg : Cfg N K) (disk : D → Option (File N K)) (cp kp : Option D) (leaf : Cert N K) (k : K)
    (h : present cfg disk cp kp = some (leaf, k)) :
    (∃ c p q, cp = some p ∧ kp = some q ∧ disk p = some (.cert c) ∧ disk q = some (.key k) ∧
        leaf = { subject := c.subject, issuer := c.subject, pk := k, signer := k, ca := false, names := ["espresso"] }) ∨
      ((cp = none ∨ kp = none) ∧ k = cfg.localKey ∧
        leaf = { subject := cfg.localCert.subject, issuer := cfg.localCert.subject, pk := k, signer := k, ca := false,
                 names := ["espresso"] }) := by
  cases cp with
  | none =>
    obtain ⟨c, h1, h2, h3⟩ := generate_eq _ _ leaf k (by simpa only [present, loadCa] using h)
    cases h1; cases h2
    exact .inr ⟨.inl rfl, rfl, h3⟩
  | some p =>
    cases kp with
    | none =>
      obtain ⟨c, h1, h2, h3⟩ := generate_eq _ _ leaf k (by simpa only [present, loadCa] using h)
      cases h1; cases h2
      exact .inr ⟨.inr rfl, rfl, h3⟩
    | some q =>
      cases hp : disk p with
      | none => simp [present, loadCa, hp] at h
      | some fc =>
        cases hq : disk q with
        | none => simp [present, loadCa, hp, hq] at h
        | some fk =>
          obtain ⟨c, h1, h2, h3⟩ := generate_eq fc fk leaf k (by simpa [present, loadCa, hp, hq] using h)
          exact .inl ⟨c, p, q, rfl, rfl, by rw [hp, h1], by rw [hq, h2], h3⟩

/-! ## C92 -/

/-- `p` was started with two files, the second of which contains the key `k`. -/
def StartedWith (disk : P → D → Option (File N K)) (ls : List (Lab P D N K)) (p : P) (k : K) : Prop :=
  ∃ cp kp, Lab.start p (some cp) (some kp) ∈ ls ∧ disk p kp = some (.key k)

structure Inv (cfg : Cfg N K) (disk : P → D → Option (File N K)) (ls : List (Lab P D N K)) (s : St P N K) : Prop where
  known : cfg.prodCert.pk ∉ s.known
  certs : ∀ c ∈ s.certs, c.signer = cfg.prodCert.pk → c.pk = cfg.prodCert.pk
  serving : ∀ p c k, s.serving p = some (c, k) → c.pk = k ∧ c.signer = k ∧
    (k = cfg.prodCert.pk → StartedWith disk ls p cfg.prodCert.pk)
  made : ∀ proto peer, (proto, false, peer) ∈ s.made → proto.tls = true →
    ∃ p, peer = .own p ∧ StartedWith disk ls p cfg.prodCert.pk

theorem StartedWith.mono {disk : P → D → Option (File N K)} {ls : List (Lab P D N K)} {p : P} {k : K}
    (h : StartedWith disk ls p k) (l : Lab P D N K) : StartedWith disk (ls ++ [l]) p k := by
  obtain ⟨cp, kp, h1, h2⟩ := h
  exact ⟨cp, kp, List.mem_append_left _ h1, h2⟩

theorem inv_run (cfg : Cfg N K) (disk : P → D → Option (File N K)) (known : List K) (certs : List (Cert N K))
    (hk : cfg.prodCert.pk ∉ cfg.localKey :: known)
    (hc : ∀ c ∈ cfg.localCert :: cfg.prodCert :: certs, c.signer = cfg.prodCert.pk → c.pk = cfg.prodCert.pk)
    (ls : List (Lab P D N K)) (s : St P N K) (h : Run cfg disk (St.init cfg known certs) ls s)
    (hl : Lab.leak cfg.prodCert.pk ∉ ls) : Inv cfg disk ls s := by
  induction h with
  | nil => exact ⟨hk, hc, fun p c k h => by simp [St.init] at h, fun _ _ h => by simp [St.init] at h⟩
  | @snoc ls l s1 s2 h q ih =>
    have i := ih (fun h => hl (List.mem_append_left _ h))
    have made' : ∀ proto peer, (proto, false, peer) ∈ s1.made → proto.tls = true →
        ∃ p, peer = .own p ∧ StartedWith disk (ls ++ [l]) p cfg.prodCert.pk := by
      intro proto peer hm ht
      obtain ⟨p, h1, h2⟩ := i.made proto peer hm ht
      exact ⟨p, h1, h2.mono l⟩
    have serving' : ∀ p c k, s1.serving p = some (c, k) → c.pk = k ∧ c.signer = k ∧
        (k = cfg.prodCert.pk → StartedWith disk (ls ++ [l]) p cfg.prodCert.pk) := by
      intro p c k hs
      obtain ⟨h1, h2, h3⟩ := i.serving p c k hs
      exact ⟨h1, h2, fun e => (h3 e).mono l⟩
    cases q with
    | start p cp kp c k hp =>
      have hs : c.pk = k ∧ c.signer = k ∧
          (k = cfg.prodCert.pk → StartedWith disk (ls ++ [Lab.start p cp kp]) p cfg.prodCert.pk) := by
        rcases present_eq cfg (disk p) cp kp c k hp with ⟨c', a, b, h1, h2, h3, h4, h5⟩ | ⟨_, h2, h3⟩
        · subst h5; subst h1; subst h2
          exact ⟨rfl, rfl, fun e => ⟨a, b, by simp, by rw [h4, e]⟩⟩
        · subst h3
          exact ⟨rfl, rfl, fun e => absurd (e.symm.trans h2) (fun e' => hk (by simp [e']))⟩
      refine ⟨i.known, ?_, ?_, made'⟩
      · intro c' hm e
        rcases List.mem_cons.1 hm with rfl | hm
        · rw [hs.1, ← hs.2.1, e]
        · exact i.certs c' hm e
      · intro p' c' k' hs'
        dsimp only at hs'
        by_cases he : p' = p
        · rw [if_pos he] at hs'
          cases hs'; subst he
          exact hs
        · rw [if_neg he] at hs'
          exact serving' p' c' k' hs'
    | startFails p cp kp hp => exact ⟨i.known, i.certs, serving', made'⟩
    | leak k =>
      refine ⟨?_, i.certs, serving', made'⟩
      intro hm
      rcases List.mem_cons.1 hm with e | hm
      · exact hl (by simp [e])
      · exact i.known hm
    | sign c hs =>
      refine ⟨i.known, ?_, serving', made'⟩
      intro c' hm e
      rcases List.mem_cons.1 hm with rfl | hm
      · exact absurd (e ▸ hs) i.known
      · exact i.certs c' hm e
    | dialOwn proto useLocal p c k hs =>
      simp only [St.record]
      split
      · rename_i ha
        refine ⟨i.known, i.certs, serving', ?_⟩
        intro proto' peer' hm ht
        rcases List.mem_cons.1 hm with e | hm
        · cases e
          obtain ⟨h1, h2, h3⟩ := serving' p c k hs
          simp only [accepts, ht, verify, root, Bool.not_true, Bool.false_or, Bool.and_eq_true] at ha
          have := path_empty _ _ _ ha.2
          exact ⟨p, rfl, h3 (by simpa [← h2] using this)⟩
        · exact made' proto' peer' hm ht
      · exact ⟨i.known, i.certs, serving', made'⟩
    | dialOutsider proto useLocal c pool hcm hpm hkn =>
      simp only [St.record]
      split
      · rename_i ha
        refine ⟨i.known, i.certs, serving', ?_⟩
        intro proto' peer' hm ht
        rcases List.mem_cons.1 hm with e | hm
        · cases e
          simp only [accepts, ht, verify, root, Bool.not_true, Bool.false_or, Bool.and_eq_true] at ha
          have := path_pk cfg.prodCert pool (fun i' hi => i.certs i' (hpm i' hi)) 6 c (i.certs c hcm) (by simpa using ha.2)
          exact absurd (this ▸ hkn ht) i.known
        · exact made' proto' peer' hm ht
      · exact ⟨i.known, i.certs, serving', made'⟩

/-- **C92**, first half: over a protocol with TLS, a client that uses the production authority is connected to nobody but a
marshal or broker that was started with the production key file. Whatever else there is in the world: certificates, keys (but
not the production key, which outsiders never get), and marshals and brokers started with other files or none. -/
theorem C92_only (cfg : Cfg N K) (disk : P → D → Option (File N K)) (known : List K) (certs : List (Cert N K))
    (hk : cfg.prodCert.pk ∉ cfg.localKey :: known)
    (hc : ∀ c ∈ cfg.localCert :: cfg.prodCert :: certs, c.signer = cfg.prodCert.pk → c.pk = cfg.prodCert.pk)
    (ls : List (Lab P D N K)) (s : St P N K) (h : Run cfg disk (St.init cfg known certs) ls s)
    (hl : Lab.leak cfg.prodCert.pk ∉ ls) (proto : Proto) (ht : proto = .tcpTls ∨ proto = .quic) (peer : Peer P)
    (hm : (proto, false, peer) ∈ s.made) :
    ∃ p cp kp, peer = .own p ∧ Lab.start p (some cp) (some kp) ∈ ls ∧ disk p kp = some (.key cfg.prodCert.pk) := by
  obtain ⟨p, h1, cp, kp, h2, h3⟩ := (inv_run cfg disk known certs hk hc ls s h hl).made proto peer hm
    (by rcases ht with rfl | rfl <;> rfl)
  exact ⟨p, cp, kp, h1, h2, h3⟩

/-- What a process presents, if it was only ever started in one way. -/
theorem serving_run (cfg : Cfg N K) (disk : P → D → Option (File N K)) (s0 : St P N K) (h0 : ∀ p, s0.serving p = none)
    (ls : List (Lab P D N K)) (s : St P N K) (h : Run cfg disk s0 ls s) (p : P) (x : Cert N K × K)
    (hp : ∀ cp kp, Lab.start p cp kp ∈ ls → present cfg (disk p) cp kp = some x) :
    (s.serving p = none ∨ s.serving p = some x) ∧ (∀ cp kp, Lab.start p cp kp ∈ ls → s.serving p = some x) := by
  induction h with
  | nil => exact ⟨.inl (h0 p), fun _ _ h => by cases h⟩
  | @snoc ls l s1 s2 h q ih =>
    obtain ⟨i1, i2⟩ := ih (fun cp kp hm => hp cp kp (List.mem_append_left _ hm))
    have keep : s2.serving = s1.serving → (∀ cp kp, l ≠ Lab.start p cp kp) →
        (s2.serving p = none ∨ s2.serving p = some x) ∧
          (∀ cp kp, Lab.start p cp kp ∈ ls ++ [l] → s2.serving p = some x) := by
      intro e hn
      rw [e]
      refine ⟨i1, fun cp kp hm => ?_⟩
      rcases List.mem_append.1 hm with hm | hm
      · exact i2 cp kp hm
      · exact absurd (List.mem_singleton.1 hm).symm (hn cp kp)
    have hrec : ∀ ok y, (s1.record ok y).serving = s1.serving := by
      intro ok y; unfold St.record; split <;> rfl
    cases q with
    | start p' cp kp c k hpr =>
      by_cases he : p' = p
      · subst he
        have := hp cp kp (by simp)
        rw [hpr] at this
        dsimp only
        rw [if_pos rfl, this]
        exact ⟨.inr rfl, fun _ _ _ => rfl⟩
      · dsimp only
        rw [if_neg (fun e => he e.symm)]
        refine ⟨i1, fun cp' kp' hm => ?_⟩
        rcases List.mem_append.1 hm with hm | hm
        · exact i2 cp' kp' hm
        · have := List.mem_singleton.1 hm
          cases this
          exact absurd rfl he
    | startFails p' cp kp hpr =>
      refine ⟨i1, fun cp' kp' hm => ?_⟩
      rcases List.mem_append.1 hm with hm | hm
      · exact i2 cp' kp' hm
      · have := List.mem_singleton.1 hm
        cases this
        have := hp cp kp (by simp)
        rw [hpr] at this
        cases this
    | leak k => exact keep rfl (by intro _ _ e; cases e)
    | sign c hs => exact keep rfl (by intro _ _ e; cases e)
    | dialOwn => exact keep (hrec _ _) (by intro _ _ e; cases e)
    | dialOutsider => exact keep (hrec _ _) (by intro _ _ e; cases e)

/-- The certificate made from an authority's files. -/
def leafOf (a : Cert N K) (k : K) : Cert N K :=
  { subject := a.subject, issuer := a.subject, pk := k, signer := k, ca := false, names := ["espresso"] }

theorem leaf_verify (a : Cert N K) (pool : List (Cert N K)) : verify a "espresso" (leafOf a a.pk) pool = true := by
  simp [verify, leafOf, path_direct]

/-- **C92**, second half: a marshal or broker started with the files of the production authority is reached: whoever connects to
it with the production authority gets a connection, over every protocol. -/
theorem C92_reached (cfg : Cfg N K) (disk : P → D → Option (File N K)) (known : List K) (certs : List (Cert N K))
    (ls : List (Lab P D N K)) (s : St P N K) (h : Run cfg disk (St.init cfg known certs) ls s) (p : P)
    (hp : ∀ cp kp, Lab.start p cp kp ∈ ls → ∃ a b, cp = some a ∧ kp = some b ∧ disk p a = some (.cert cfg.prodCert) ∧
      disk p b = some (.key cfg.prodCert.pk))
    (hs : ∃ cp kp, Lab.start p cp kp ∈ ls) (proto : Proto) :
    (∃ leaf s', Step cfg disk s (.dial proto false (.own p) leaf []) s') ∧
    ∀ leaf pool s', Step cfg disk s (.dial proto false (.own p) leaf pool) s' →
      s'.made = (proto, false, .own p) :: s.made ∧ s'.refused = s.refused := by
  have hx : s.serving p = some (leafOf cfg.prodCert cfg.prodCert.pk, cfg.prodCert.pk) := by
    obtain ⟨cp, kp, hs⟩ := hs
    refine (serving_run cfg disk _ (fun _ => rfl) ls s h p _ ?_).2 cp kp hs
    intro cp kp hm
    obtain ⟨a, b, rfl, rfl, h1, h2⟩ := hp cp kp hm
    simp [present, loadCa, generateCert, h1, h2, leafOf]
  refine ⟨⟨_, _, .dialOwn proto false p _ _ hx⟩, ?_⟩
  intro leaf pool s' q
  cases q with
  | dialOwn _ _ _ c k hc =>
    rw [hx] at hc
    cases hc
    have : accepts cfg proto false (leafOf cfg.prodCert cfg.prodCert.pk) [] = true := by
      simp [accepts, root, leaf_verify]
    rw [this]
    exact ⟨rfl, rfl⟩

/-! ## C93: connections between brokers use the local authority -/

/-- **C93**, what holds: a broker started without files is reached by the others. -/
theorem C93_partial (cfg : Cfg N K) (hcfg : cfg.localCert.pk = cfg.localKey) (disk : P → D → Option (File N K))
    (known : List K) (certs : List (Cert N K)) (ls : List (Lab P D N K)) (s : St P N K)
    (h : Run cfg disk (St.init cfg known certs) ls s) (p : P)
    (hp : ∀ cp kp, Lab.start p cp kp ∈ ls → cp = none ∧ kp = none)
    (hs : ∃ cp kp, Lab.start p cp kp ∈ ls) (proto : Proto) :
    (∃ leaf s', Step cfg disk s (.dial proto true (.own p) leaf []) s') ∧
    ∀ leaf pool s', Step cfg disk s (.dial proto true (.own p) leaf pool) s' →
      s'.made = (proto, true, .own p) :: s.made ∧ s'.refused = s.refused := by
  have hx : s.serving p = some (leafOf cfg.localCert cfg.localCert.pk, cfg.localCert.pk) := by
    obtain ⟨cp, kp, hs⟩ := hs
    refine (serving_run cfg disk _ (fun _ => rfl) ls s h p _ ?_).2 cp kp hs
    intro cp kp hm
    obtain ⟨rfl, rfl⟩ := hp cp kp hm
    simp [present, loadCa, generateCert, leafOf, hcfg]
  refine ⟨⟨_, _, .dialOwn proto true p _ _ hx⟩, ?_⟩
  intro leaf pool s' q
  cases q with
  | dialOwn _ _ _ c k hc =>
    rw [hx] at hc
    cases hc
    have : accepts cfg proto true (leafOf cfg.localCert cfg.localCert.pk) [] = true := by
      simp [accepts, root, leaf_verify]
    rw [this]
    exact ⟨rfl, rfl⟩

/-- **C93** fails for the operator's own brokers: if they are started with another key than the local one, they refuse one another
over every protocol with TLS, always. -/
theorem C93_refused (cfg : Cfg N K) (disk : P → D → Option (File N K)) (known : List K) (certs : List (Cert N K))
    (ls : List (Lab P D N K)) (s : St P N K) (h : Run cfg disk (St.init cfg known certs) ls s) (p : P) (a : Cert N K) (k : K)
    (hk : k ≠ cfg.localCert.pk)
    (hp : ∀ cp kp, Lab.start p cp kp ∈ ls → ∃ d e, cp = some d ∧ kp = some e ∧ disk p d = some (.cert a) ∧
      disk p e = some (.key k))
    (proto : Proto) (ht : proto = .tcpTls ∨ proto = .quic) (leaf : Cert N K) (pool : List (Cert N K)) (s' : St P N K)
    (q : Step cfg disk s (.dial proto true (.own p) leaf pool) s') :
    s'.made = s.made ∧ s'.refused = (proto, true, .own p) :: s.refused := by
  have ht : proto.tls = true := by rcases ht with rfl | rfl <;> rfl
  have hx := (serving_run cfg disk _ (fun _ => rfl) ls s h p (leafOf a k, k) (by
    intro cp kp hm
    obtain ⟨d, e, rfl, rfl, h1, h2⟩ := hp cp kp hm
    simp [present, loadCa, generateCert, h1, h2, leafOf])).1
  cases q with
  | dialOwn _ _ _ c k' hc =>
    rcases hx with hx | hx
    · rw [hx] at hc; cases hc
    · rw [hx] at hc
      cases hc
      have : accepts cfg proto true (leafOf a k) [] = false := by
        simp [accepts, ht, root, verify, leafOf, pathOk, hk]
      rw [this]
      exact ⟨rfl, rfl⟩

/-! A world: names and keys are numbers, the local authority has key 1 and the production one key 2. -/

def wCfg : Cfg Nat Nat :=
  { localCert := ⟨1, 1, 1, 1, true, []⟩, localKey := 1, prodCert := ⟨2, 2, 2, 2, true, []⟩ }

/-- Process 0 finds the production authority's certificate under path 0, its key under path 1 and a different key under
path 2. -/
def wDisk : Nat → Nat → Option (File Nat Nat)
  | 0, 0 => some (.cert wCfg.prodCert)
  | 0, 1 => some (.key 2)
  | 0, 2 => some (.key 3)
  | _, _ => none

/-- **C93** fails for others: whoever has read the source is accepted as a broker, over every protocol: no key of the operator is
needed. -/
theorem C93_false (proto : Proto) :
    ∃ (ls : List (Lab Nat Nat Nat Nat)) (s : St Nat Nat Nat), Run wCfg wDisk (St.init wCfg [] []) ls s ∧
      (∀ k, Lab.leak k ∉ ls) ∧ (proto, true, .outsider) ∈ s.made := by
  have ha : accepts wCfg proto true (leafOf wCfg.localCert 1) [] = true := by
    cases proto <;> decide +kernel
  refine ⟨[.sign (leafOf wCfg.localCert 1), .dial proto true .outsider (leafOf wCfg.localCert 1) []], _,
    .snoc (.snoc .nil (.sign _ ?_)) (.dialOutsider proto true _ [] ?_ ?_ ?_), ?_, ?_⟩
  · decide +kernel
  · exact List.mem_cons_self
  · intro i hi; cases hi
  · intro _; exact List.mem_cons_self
  · intro k hk
    simp at hk
  · rw [ha]
    exact List.mem_cons_self

/-- A run for `C92_only`, `C92_reached` and `C93_refused`: a broker started with the production files is reached by a client, the
same broker is refused to another broker, and an outsider with a certificate of its own is refused to the client. -/
example : ∃ s : St Nat Nat Nat,
    Run wCfg wDisk (St.init wCfg [7] [])
      [.start 0 (some 0) (some 1), .dial .tcpTls false (.own 0) (leafOf wCfg.prodCert 2) [],
       .dial .tcpTls true (.own 0) (leafOf wCfg.prodCert 2) [],
       .sign ⟨2, 2, 7, 7, false, ["espresso"]⟩,
       .dial .tcpTls false .outsider ⟨2, 2, 7, 7, false, ["espresso"]⟩ [⟨2, 2, 7, 7, false, ["espresso"]⟩, wCfg.prodCert]] s ∧
    s.made = [(.tcpTls, false, .own 0)] ∧ s.refused = [(.tcpTls, false, .outsider), (.tcpTls, true, .own 0)] := by
  refine ⟨_, .snoc (.snoc (.snoc (.snoc (.snoc .nil
    (.start 0 (some 0) (some 1) (leafOf wCfg.prodCert 2) 2 ?_)) (.dialOwn .tcpTls false 0 _ 2 ?_))
    (.dialOwn .tcpTls true 0 _ 2 ?_)) (.sign _ ?_)) (.dialOutsider .tcpTls false _ _ ?_ ?_ ?_), ?_, ?_⟩
  all_goals decide +kernel

/-! ## C94: the command line -/

/-- **C94**, what holds: started with two files, a marshal or broker either does not start, or presents a certificate made from
them; and if the key belongs to the certificate, whoever trusts that authority accepts it. -/
theorem C94_partial (cfg : Cfg N K) (disk : D → Option (File N K)) (cp kp : D) :
    present cfg disk (some cp) (some kp) = none ∨
    ∃ a k leaf, disk cp = some (.cert a) ∧ disk kp = some (.key k) ∧ present cfg disk (some cp) (some kp) = some (leaf, k) ∧
      leaf.pk = k ∧ leaf.ca = false ∧ (k = a.pk → ∀ pool, verify a "espresso" leaf pool = true) := by
  cases h : present cfg disk (some cp) (some kp) with
  | none => exact .inl rfl
  | some x =>
    obtain ⟨leaf, k⟩ := x
    rcases present_eq cfg disk _ _ leaf k h with ⟨c, p, q, h1, h2, h3, h4, h5⟩ | ⟨h1, _⟩
    · cases h1; cases h2
      refine .inr ⟨c, k, leaf, h3, h4, rfl, by rw [h5], by rw [h5], ?_⟩
      rintro rfl pool
      rw [h5]
      exact leaf_verify c pool
    · rcases h1 with h1 | h1 <;> cases h1

/-- **C94** fails: with the certificate file alone, or the key file alone, the process starts and presents a certificate of the local
authority; with a key that does not belong to the certificate it starts, and nobody accepts what it presents. -/
theorem C94_false :
    (∃ leaf, present wCfg (wDisk 0) (some 0) none = some (leaf, wCfg.localKey) ∧
      (∀ pool : List (Cert Nat Nat), verify (root wCfg true) "espresso" leaf pool = true) ∧
      verify (root wCfg false) "espresso" leaf [] = false) ∧
    (∃ leaf, present wCfg (wDisk 0) none (some 1) = some (leaf, wCfg.localKey) ∧
      (∀ pool : List (Cert Nat Nat), verify (root wCfg true) "espresso" leaf pool = true) ∧
      verify (root wCfg false) "espresso" leaf [] = false) ∧
    (∃ leaf, present wCfg (wDisk 0) (some 0) (some 2) = some (leaf, 3) ∧
      ∀ useLocal, verify (root wCfg useLocal) "espresso" leaf [] = false) := by
  refine ⟨⟨leafOf wCfg.localCert 1, by decide +kernel, fun pool => leaf_verify wCfg.localCert pool, by decide +kernel⟩,
    ⟨leafOf wCfg.localCert 1, by decide +kernel, fun pool => leaf_verify wCfg.localCert pool, by decide +kernel⟩,
    ⟨leafOf wCfg.prodCert 3, by decide +kernel, by decide +kernel⟩⟩

example : ∃ leaf, present wCfg (wDisk 0) (some 0) (some 1) = some (leaf, 2) ∧
    verify wCfg.prodCert "espresso" leaf [] = true := ⟨_, rfl, by decide +kernel⟩

end Verif.Props.Trust
