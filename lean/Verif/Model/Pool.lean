/-!
# Model of the memory pool

`cdn-proto/src/connection/limiter/pool.rs`, `limiter/mod.rs` and their use in `read_length_delimited`
(`connection/protocols/mod.rs:327-350`).

The pool is a `tokio::sync::Semaphore` with one permit per byte (pool.rs:26-33); tokio is external. What
is assumed of it, and written down here, is its documented behaviour: it is fair; a request that cannot
be met takes what is available and waits in a queue (`acquire_many_owned`); released permits go to the
front of the queue, and only what is left becomes available; dropping a waiting request gives back what
it had. Without a configured pool (`Limiter::none`, mod.rs:45-51) nothing is limited and nothing is
modelled.

`Allocation<T>` (pool.rs:79-90) holds an `Arc` of the bytes and an `Arc` of the permit. Cloning it clones
both; dropping it drops first the bytes, then the permit (fields are dropped in the order of
declaration). The bytes are freed when the last `Arc` of them goes, the permit is returned when the last
`Arc` of it goes.
-/

namespace Verif.Pool

/-- A request that waits: it needs `need` bytes and has `got` of them. -/
structure Waiter where
  id : Nat
  need : Nat
  got : Nat
deriving DecidableEq, Repr

/-- Bytes handed out: `ptrs` clones hold the bytes, `permits` clones hold the permit. -/
structure Alloc where
  id : Nat
  size : Nat
  ptrs : Nat
  permits : Nat
deriving DecidableEq, Repr

/-- The pool. `next` numbers the requests. -/
structure Pool where
  cap : Nat
  avail : Nat
  queue : List Waiter
  live : List Alloc
  next : Nat

/-- What can be observed. -/
inductive Obs where
  | requested (id n : Nat)
  | granted (id n : Nat)
  | cancelled (id : Nat)
  | cloned (id : Nat)
  /-- a clone is gone -/
  | dropped (id : Nat)
  /-- the bytes are freed -/
  | freed (id n : Nat)
  /-- the permit went back to the pool -/
  | returned (id n : Nat)
deriving DecidableEq, Repr

/-- What can happen next; without effect if it cannot happen. -/
inductive Label where
  /-- `allocate_message_bytes(n)`, limiter/mod.rs:58-71, pool.rs:60-69 -/
  | request (n : Nat)
  /-- the waiting reader is dropped -/
  | cancel (id : Nat)
  /-- `Allocation::clone`, pool.rs:81 -/
  | clone (id : Nat)
  /-- first half of dropping a clone: the bytes, pool.rs:87 -/
  | dropPtr (id : Nat)
  /-- second half: the permit, pool.rs:90 -/
  | dropPermit (id : Nat)

/-- pool.rs:30-32 `MemoryPool::new(n)`. -/
def new (n : Nat) : Pool := ⟨n, n, [], [], 0⟩

/-- tokio: released permits go to the waiting requests in order. Returns what is left, who still waits,
and who was served. -/
def assign : Nat → List Waiter → Nat × List Waiter × List Waiter
  | k, [] => (k, [], [])
  | k, w :: q =>
    if w.need - w.got ≤ k then
      let r := assign (k - (w.need - w.got)) q
      (r.1, r.2.1, w :: r.2.2)
    else (0, { w with got := w.got + k } :: q, [])

/-- A served request is one handle: pool.rs:62-68, then `Bytes::from(buffer, permit)`,
protocols/mod.rs:350, pool.rs:94-99. -/
def Waiter.alloc (w : Waiter) : Alloc := ⟨w.id, w.need, 1, 1⟩

/-- tokio: give back `k` permits. -/
def Pool.release (s : Pool) (k : Nat) : Pool × List Obs :=
  let r := assign k s.queue
  ({ s with avail := s.avail + r.1, queue := r.2.1, live := s.live ++ r.2.2.map Waiter.alloc },
   r.2.2.map fun w => .granted w.id w.need)

/-- Take the first element satisfying `p` out of a list: what is before it, itself, what follows. -/
def pick {A : Type} (p : A → Bool) : List A → Option (List A × A × List A)
  | [] => none
  | a :: l => if p a then some ([], a, l) else (pick p l).map fun r => (a :: r.1, r.2.1, r.2.2)

/-- One step. -/
def Pool.step (s : Pool) : Label → Pool × List Obs
  | .request n =>
    if n ≤ s.avail then
      ({ s with avail := s.avail - n, live := s.live ++ [⟨s.next, n, 1, 1⟩], next := s.next + 1 },
       [.requested s.next n, .granted s.next n])
    else
      ({ s with avail := 0, queue := s.queue ++ [⟨s.next, n, s.avail⟩], next := s.next + 1 },
       [.requested s.next n])
  | .cancel id =>
    match pick (fun w => w.id = id) s.queue with
    | none => (s, [])
    | some (q1, w, q2) =>
      let r := { s with queue := q1 ++ q2 }.release w.got
      (r.1, .cancelled id :: r.2)
  | .clone id =>
    match pick (fun a => a.id = id) s.live with
    | none => (s, [])
    | some (l1, a, l2) =>
      -- only a handle that still holds the bytes can be cloned
      if 0 < a.ptrs then
        ({ s with live := l1 ++ { a with ptrs := a.ptrs + 1, permits := a.permits + 1 } :: l2 },
         [.cloned id])
      else (s, [])
  | .dropPtr id =>
    match pick (fun a => a.id = id) s.live with
    | none => (s, [])
    | some (l1, a, l2) =>
      if 0 < a.ptrs then
        ({ s with live := l1 ++ { a with ptrs := a.ptrs - 1 } :: l2 },
         if a.ptrs = 1 then [.freed id a.size] else [])
      else (s, [])
  | .dropPermit id =>
    match pick (fun a => a.id = id) s.live with
    | none => (s, [])
    | some (l1, a, l2) =>
      -- a handle drops its permit after its bytes
      if a.ptrs < a.permits then
        if a.permits = 1 then
          let r := { s with live := l1 ++ l2 }.release a.size
          (r.1, .dropped id :: .returned id a.size :: r.2)
        else ({ s with live := l1 ++ { a with permits := a.permits - 1 } :: l2 }, [.dropped id])
      else (s, [])

/-- A schedule. -/
def Pool.run (s : Pool) : List Label → Pool × List Obs
  | [] => (s, [])
  | l :: ls =>
    let r := s.step l
    let r' := r.1.run ls
    (r'.1, r.2 ++ r'.2)

end Verif.Pool
