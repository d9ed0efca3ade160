/-!
# Whom a connection is made to: certificates and authorities

Models

* what a marshal or broker presents: `cdn-proto/src/crypto/tls.rs:100-126` (`load_ca`), 52-93 (`generate_cert_from_ca`),
  called by `cdn-broker/src/lib.rs:183-187` and `cdn-marshal/src/lib.rs:97-101`;
* what a client checks: `tls.rs:134-155` (`generate_root_certificate_store`) and the TLS handshake for the name `espresso`
  (`cdn-proto/src/connection/protocols/tcp_tls.rs:81-95`, 112-126; `quic.rs:71-78`, 88-103);
* which authority is asked for: a client's own setting (`cdn-client/src/lib.rs:92`, 106), and `true`, the local one, between
  brokers (`cdn-broker/src/tasks/broker/heartbeat.rs:93`).

Keys and certificates are symbols: a certificate names the key that signed it and the key it is for, and only who holds a key
can sign with it or complete a handshake as the owner of a certificate for it. The others in the world (`outsider`) sign what
they like with the keys they hold, see every certificate, and present any of them. They hold the key of the local authority,
which is in the source (`cdn-proto/build.rs:12-20`).

How `rustls` checks a certificate is assumed as written in `verify`. Left out: validity periods, key usages, revocation.
-/

namespace Verif.Trust

/-- Subject, issuer, the key it is for, the key that signed it, whether it may sign others, the names it is for. -/
structure Cert (N K : Type) where
  subject : N
  issuer : N
  pk : K
  signer : K
  ca : Bool
  names : List String
deriving DecidableEq

/-- What is in a file. -/
inductive File (N K : Type) where
  | cert (c : Cert N K)
  | key (k : K)
  | other
deriving DecidableEq

inductive Proto where
  | tcp
  | tcpTls
  | quic
  | memory
deriving DecidableEq

/-- Does the protocol look at certificates? `tcp.rs:48` and `memory.rs:49` ignore the argument. -/
def Proto.tls : Proto → Bool
  | .tcp => false
  | .tcpTls => true
  | .quic => true
  | .memory => false

section
variable {N K : Type} [DecidableEq N] [DecidableEq K]

/-- The two authorities that are compiled in: certificate and key of the local one (`build.rs:26-55`), certificate of the
production one (`tls.rs:25-45`). -/
structure Cfg (N K : Type) where
  localCert : Cert N K
  localKey : K
  prodCert : Cert N K

/-- tls.rs:100-126. `none` is an error. -/
def loadCa {D : Type} (cfg : Cfg N K) (disk : D → Option (File N K)) (certPath keyPath : Option D) :
    Option (File N K × File N K) :=
  match certPath, keyPath with
  | some c, some k =>
    match disk c with
    | none => none
    | some fc =>
      match disk k with
      | none => none
      | some fk => some (fc, fk)
  | _, _ => some (.cert cfg.localCert, .key cfg.localKey)

/-- tls.rs:52-93. The subject is that of the authority, the issuer too (`self_signed`), and the key is the authority's key. -/
def generateCert : File N K → File N K → Option (Cert N K × K)
  | .cert c, .key k =>
    some ({ subject := c.subject, issuer := c.subject, pk := k, signer := k, ca := false, names := ["espresso"] }, k)
  | _, _ => none

/-- tls.rs:134-155: the certificate that is trusted. -/
def root (cfg : Cfg N K) (useLocal : Bool) : Cert N K := if useLocal then cfg.localCert else cfg.prodCert

/-- Is there a path from the certificate to the trusted one, over at most `n` of the others that were presented, each of which
may sign? -/
def pathOk (a : Cert N K) (pool : List (Cert N K)) : Nat → Cert N K → Bool
  | 0, c => c.issuer == a.subject && c.signer == a.pk
  | n + 1, c =>
    (c.issuer == a.subject && c.signer == a.pk) ||
      pool.any (fun i => i.ca && c.issuer == i.subject && c.signer == i.pk && pathOk a pool n i)

/-- What `rustls` checks: the name, that the certificate is not one of an authority, and the path. -/
def verify (a : Cert N K) (name : String) (leaf : Cert N K) (pool : List (Cert N K)) : Bool :=
  !leaf.ca && leaf.names.contains name && pathOk a pool 6 leaf

end

/-- Who answers a connection. -/
inductive Peer (P : Type) where
  /-- a marshal or broker of the operator -/
  | own (p : P)
  | outsider
deriving DecidableEq

structure St (P N K : Type) where
  /-- what the marshals and brokers that have started present, and the key they use -/
  serving : P → Option (Cert N K × K)
  /-- the keys others hold -/
  known : List K
  /-- the certificates there are -/
  certs : List (Cert N K)
  /-- the connections that were made: whether with the local authority, and to whom -/
  made : List (Proto × Bool × Peer P)
  /-- the ones that were refused -/
  refused : List (Proto × Bool × Peer P)

inductive Lab (P D N K : Type) where
  /-- a marshal or broker is started with these command line arguments -/
  | start (p : P) (certPath keyPath : Option D)
  /-- outsiders get hold of a key -/
  | leak (k : K)
  /-- outsiders make a certificate -/
  | sign (c : Cert N K)
  /-- somebody connects, with this authority, and reaches this peer, which presents these certificates -/
  | dial (proto : Proto) (useLocal : Bool) (peer : Peer P) (leaf : Cert N K) (pool : List (Cert N K))

section
variable {P D N K : Type} [DecidableEq P] [DecidableEq N] [DecidableEq K]

/-- `cdn-broker/src/lib.rs:183-187`, `cdn-marshal/src/lib.rs:97-101` -/
def present (cfg : Cfg N K) (disk : D → Option (File N K)) (certPath keyPath : Option D) : Option (Cert N K × K) :=
  match loadCa cfg disk certPath keyPath with
  | none => none
  | some (c, k) => generateCert c k

/-- Is the connection made? -/
def accepts (cfg : Cfg N K) (proto : Proto) (useLocal : Bool) (leaf : Cert N K) (pool : List (Cert N K)) : Bool :=
  !proto.tls || verify (root cfg useLocal) "espresso" leaf pool

def St.record (s : St P N K) (ok : Bool) (x : Proto × Bool × Peer P) : St P N K :=
  if ok then { s with made := x :: s.made } else { s with refused := x :: s.refused }

/-- `disk` is what each process finds under a path. -/
inductive Step (cfg : Cfg N K) (disk : P → D → Option (File N K)) (s : St P N K) : Lab P D N K → St P N K → Prop
  | start (p : P) (cp kp : Option D) (c : Cert N K) (k : K) (h : present cfg (disk p) cp kp = some (c, k)) :
      Step cfg disk s (.start p cp kp)
        { s with serving := fun q => if q = p then some (c, k) else s.serving q, certs := c :: s.certs }
  /-- the process does not start -/
  | startFails (p : P) (cp kp : Option D) (h : present cfg (disk p) cp kp = none) : Step cfg disk s (.start p cp kp) s
  | leak (k : K) : Step cfg disk s (.leak k) { s with known := k :: s.known }
  | sign (c : Cert N K) (h : c.signer ∈ s.known) : Step cfg disk s (.sign c) { s with certs := c :: s.certs }
  /-- tcp_tls.rs:147-153, quic.rs:138-142: a marshal or broker presents the one certificate it has made -/
  | dialOwn (proto : Proto) (useLocal : Bool) (p : P) (c : Cert N K) (k : K) (h : s.serving p = some (c, k)) :
      Step cfg disk s (.dial proto useLocal (.own p) c []) (s.record (accepts cfg proto useLocal c []) (proto, useLocal, .own p))
  /-- outsiders present any certificates there are; over TLS they need the key of the first -/
  | dialOutsider (proto : Proto) (useLocal : Bool) (c : Cert N K) (pool : List (Cert N K)) (hc : c ∈ s.certs)
      (hp : ∀ i ∈ pool, i ∈ s.certs) (hk : proto.tls = true → c.pk ∈ s.known) :
      Step cfg disk s (.dial proto useLocal .outsider c pool)
        (s.record (accepts cfg proto useLocal c pool) (proto, useLocal, .outsider))

inductive Run (cfg : Cfg N K) (disk : P → D → Option (File N K)) (s : St P N K) : List (Lab P D N K) → St P N K → Prop
  | nil : Run cfg disk s [] s
  | snoc {ls l s1 s2} : Run cfg disk s ls s1 → Step cfg disk s1 l s2 → Run cfg disk s (ls ++ [l]) s2

/-- Nothing has started; others hold the key of the local authority and `known`, and there are the two authorities'
certificates and `certs`. -/
def St.init (cfg : Cfg N K) (known : List K) (certs : List (Cert N K)) : St P N K :=
  { serving := fun _ => none, known := cfg.localKey :: known, certs := cfg.localCert :: cfg.prodCert :: certs,
    made := [], refused := [] }

end

end Verif.Trust
