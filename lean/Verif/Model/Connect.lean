/-!
# Model of connecting by name

`Protocol::connect` and `UnfinalizedConnection::finalize` of `cdn-proto/src/connection/protocols/tcp.rs`,
`tcp_tls.rs` and `quic.rs`, as far as the calls they make, in which order, and the time they take. Times are in
milliseconds. The resolver, the sockets, rustls and quinn are external: they answer anything, after any time.
`memory.rs` has no names and is in `Model/Memory`.

Assumed: a socket made for IPv4 refuses to connect to an IPv6 address at once (`TcpSocket::new_v4` with the operating
system; quinn's `connect` on an endpoint bound to `0.0.0.0`). `tokio::time::timeout` lets a call end that is ready when its
time is up. `to_socket_addrs` of the standard library does not return before the resolver has answered, and is not an
await: nothing outside can cut it short.
-/

namespace Verif.Connect

/-- `std::net::SocketAddr`. -/
structure Addr where
  v6 : Bool
  host : Nat
  port : Nat
deriving DecidableEq, Repr

/-- The three protocols. -/
inductive Proto where
  | tcp
  | tcpTls
  | quic
deriving DecidableEq, Repr

/-- How long an external call would take, and whether it then succeeds. -/
structure Call where
  ms : Nat
  ok : Bool
deriving DecidableEq, Repr

/-- The world around one `connect`. -/
structure Env where
  /-- the resolver: how long it takes, and the addresses in its order, or an error (also for a string without a port) -/
  resolve : List Char → Nat × Option (List Addr)
  /-- a local socket can be made (tcp.rs:67-71, quic.rs:58-67) -/
  socket : Bool
  /-- TCP: the three-way handshake with that address -/
  syn : Addr → Call
  /-- TLS over TCP: the TLS handshake. The peer's certificate is looked at in `Model/Trust`. -/
  tls : Addr → Call
  /-- QUIC: the handshake -/
  handshake : Addr → Call
  /-- QUIC: `open_bi` and its first byte (quic.rs:219-234) -/
  stream : Addr → Call

/-- How a `connect` ends. -/
inductive Res where
  /-- connected to that address -/
  | connected (a : Addr)
  | parse
  | connection
deriving DecidableEq, Repr

/-- Five seconds. -/
def limit : Nat := 5000

/-- What is done with the address, each call under a `timeout` of five seconds: tcp.rs:74-83; tcp_tls.rs:99-108 and
116-126; quic.rs:87-103 and 106-113. -/
def calls (p : Proto) (env : Env) (a : Addr) : List Call :=
  match p with
  | .tcp => [env.syn a]
  | .tcpTls => [env.syn a, env.tls a]
  | .quic => [env.handshake a, env.stream a]

/-- The calls in turn; the first that fails or takes too long ends it. -/
def attempt (a : Addr) : List Call → Nat × Res
  | [] => (0, .connected a)
  | c :: cs =>
    if limit < c.ms then (limit, .connection)
    else if c.ok then
      let r := attempt a cs
      (c.ms + r.1, r.2)
    else (c.ms, .connection)

/-- `connect`: tcp.rs:54-94, tcp_tls.rs:62-134, quic.rs:46-119. The time it takes and how it ends. -/
def connect (p : Proto) (env : Env) (name : List Char) : Nat × Res :=
  let r := env.resolve name
  match r.2 with
  -- `to_socket_addrs` failed
  | none => (r.1, .parse)
  -- `.next()` found nothing
  | some [] => (r.1, .connection)
  -- only the first address is looked at
  | some (a :: _) =>
    if env.socket = false then (r.1, .connection)
    else if a.v6 then (r.1, .connection)
    else
      let t := attempt a (calls p env a)
      (r.1 + t.1, t.2)

/-- `connect` as part of a future under a `timeout` of `t`: when that ends, and how (`none`: timed out). The time limit is
looked at only when the future waits, which it does not while the resolver works. -/
def underTimeout (t : Nat) (p : Proto) (env : Env) (name : List Char) : Nat × Option Res :=
  let c := connect p env name
  if c.1 ≤ t then (c.1, some c.2)
  else
    let blocked := (env.resolve name).1
    -- over after the resolver has answered, without having waited for anything
    if c.1 = blocked then (c.1, some c.2) else (max t blocked, none)

/-- What the listening side does with a connection it has accepted, before anything else: tcp.rs:120-129; tcp_tls.rs:182-206;
quic.rs:165-187. `peer` gives the calls: TLS handshake; QUIC handshake, then `accept_bi` and its first byte. The time it
takes and whether it succeeds; the QUIC handshake has no time limit of its own. -/
def finalize (p : Proto) (tls handshake stream : Call) : Nat × Bool :=
  match p with
  | .tcp => (0, true)
  | .tcpTls => if limit < tls.ms then (limit, false) else (tls.ms, tls.ok)
  | .quic =>
    if handshake.ok = false then (handshake.ms, false)
    else if limit < stream.ms then (handshake.ms + limit, false)
    else (handshake.ms + stream.ms, stream.ok)

end Verif.Connect
