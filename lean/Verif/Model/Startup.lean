import Verif.Model.Ident

/-!
# Starting a broker

`cdn-broker/src/lib.rs:133-262` `Broker::new`, and brokers that are started and stopped on several machines.

The library is reached through parameters: whether the local address is known, whether the discovery client and the
certificates can be made, and whether the operating system lets us bind for other reasons than the address being in use.
`parse` is `str::parse::<SocketAddr>` (`parse_endpoint!`). The address and port of a listener are in use until the process ends
(tokio does not set `SO_REUSEPORT`). Metrics and the memory pool are left out.
-/

namespace Verif.Startup
open Verif

/-- The text that is replaced (lib.rs:164-168). -/
def placeholder : Str := ['l', 'o', 'c', 'a', 'l', '_', 'i', 'p']

/-- `str::replace(placeholder, ip)`: from left to right, non-overlapping. -/
def replace (ip : Str) : Nat → Str → Str
  | 0, s => s
  | _ + 1, [] => []
  | n + 1, c :: s =>
    if placeholder.isPrefixOf (c :: s) then ip ++ replace ip n ((c :: s).drop placeholder.length) else c :: replace ip n s

/-- The endpoints of `Config` (lib.rs:44-60). -/
structure Conf where
  pubAdv : Str
  pubBind : Str
  privAdv : Str
  privBind : Str

/-- Where a socket listens; `none` is the unspecified address (`0.0.0.0`). -/
structure Sock where
  udp : Bool
  ip : Option Nat
  port : Nat
deriving DecidableEq

/-- The operating system does not let both listen. -/
def Sock.clash (a b : Sock) : Bool := a.udp = b.udp && a.port = b.port && (a.ip = none || b.ip = none || a.ip = b.ip)

/-- How the library answers a call of `new`. -/
structure Lib where
  /-- `local_ip()` -/
  ip : Option Str
  /-- `R::DiscoveryClientType::new` succeeds -/
  discovery : Bool
  /-- `load_ca` and `generate_cert_from_ca` succeed -/
  ca : Bool
  /-- nothing else keeps us from binding -/
  bindUser : Bool
  bindBroker : Bool

/-- Which transports are used (`def.rs:76-140`): is it QUIC? -/
structure Run where
  userUdp : Bool
  brokerUdp : Bool
  /-- `parse_endpoint!`: address and port -/
  parse : Str → Option (Option Nat × Nat)

/-- A broker that `new` has returned. -/
structure Inst where
  id : BrokerId
  user : Sock
  broker : Sock
deriving DecidableEq

/-- `bind` of the protocols (tcp.rs:103-118, tcp_tls.rs:142-176, quic.rs:130-164). -/
def listen (r : Run) (udp : Bool) (taken : List Sock) (ok : Bool) (e : Str) : Option Sock := do
  let (ip, port) ← r.parse e
  let s : Sock := ⟨udp, ip, port⟩
  if ok && !(taken.any s.clash) then some s else none

/-- lib.rs:133-262 `Broker::new`, as far as its endpoints are concerned. -/
def new (r : Run) (l : Lib) (taken : List Sock) (c : Conf) : Option Inst := do
  let ip ← l.ip
  let put (s : Str) : Str := replace ip s.length s
  let id : BrokerId := ⟨put c.pubAdv, put c.privAdv⟩
  if l.discovery then
    if l.ca then
      let user ← listen r r.userUdp taken l.bindUser (put c.pubBind)
      let broker ← listen r r.brokerUdp (user :: taken) l.bindBroker (put c.privBind)
      some ⟨id, user, broker⟩
    else none
  else none

/-- What goes on: which brokers are running where, and which sockets other processes of a machine have. -/
structure St (M : Type) where
  up : List (M × Inst)
  other : M → List Sock

section
variable {M : Type} [DecidableEq M]

/-- The sockets in use on a machine. -/
def St.taken (s : St M) (m : M) : List Sock :=
  (s.up.filter (fun x => x.1 = m)).flatMap (fun x => [x.2.user, x.2.broker]) ++ s.other m

/-- `ip m`: the address of a machine; `c`: the configuration all brokers are started with. -/
inductive Step (r : Run) (c : Conf) (ip : M → Str) : St M → St M → Prop
  /-- a broker is started -/
  | start (s : St M) (m : M) (l : Lib) (i : Inst) (hl : l.ip = some (ip m)) (h : new r l (s.taken m) c = some i) :
      Step r c ip s { s with up := (m, i) :: s.up }
  /-- its process ends -/
  | stop (s : St M) (p q : List (M × Inst)) (x : M × Inst) (h : s.up = p ++ x :: q) : Step r c ip s { s with up := p ++ q }
  /-- other processes open and close sockets (not where somebody listens) -/
  | others (s : St M) (o : M → List Sock) : Step r c ip s { s with other := o }

inductive Steps (r : Run) (c : Conf) (ip : M → Str) : St M → Prop
  | init : Steps r c ip ⟨[], fun _ => []⟩
  | snoc {s s' : St M} (h : Steps r c ip s) (hs : Step r c ip s s') : Steps r c ip s'

end
end Verif.Startup
