/-!
# Threads of the server of the TCP backend (`src/backends/tcp/server.c`, `socketqueue.c`)

Sockets are numbers, 0 is the listening socket.
-/

namespace Laik.Sv

/-- Entries of a queue of sockets (`Laik_Tcp_SocketQueue`, src/backends/tcp/socketqueue.c
30-34) after the special first one: socket, and whether `events & revents` is not 0. -/
abbrev Queue := List (Nat × Bool)

/-- Search for the first socket with an event, and its removal,
`laik_tcp_socket_queue_pop`, src/backends/tcp/socketqueue.c 96-120 (for indexes from 1). -/
def firstReady : Queue → Option (Nat × Queue)
  | [] => none
  | e :: q => if e.2 then some (e.1, q) else (firstReady q).map fun r => (r.1, e :: r.2)

/-- `revents` as set by `poll`, src/backends/tcp/socketqueue.c 123.  `ready` are the
sockets with input. -/
def polled (ready : Nat → Bool) (q : Queue) : Queue := q.map fun e => (e.1, ready e.1)

/-- No socket in the queue has an event. -/
def quiet (q : Queue) : Bool := q.all fun e => !e.2

/-- `laik_tcp_socket_queue_push`, src/backends/tcp/socketqueue.c 128-139: `revents` is 0
(socket.c 89-99). -/
def push (q : Queue) (s : Nat) : Queue := q ++ [(s, false)]

/-- Drop of all connections in `laik_tcp_server_accept`, src/backends/tcp/server.c 64-70:
loop from the last index (here `i` is one more) to the first.  Result: queue, and sockets
which were closed. -/
def dropAll : Nat → Queue → Queue × List Nat
  | 0, q => (q, [])
  | i + 1, q =>
    match q[i]? with
    | some e => if e.1 ≠ 0 then ((dropAll i (q.eraseIdx i)).1, e.1 :: (dropAll i (q.eraseIdx i)).2) else dropAll i q
    | none => dropAll i q

/-- Check of the limit, src/backends/tcp/server.c 60-71. -/
def limited (limit : Nat) (q : Queue) : Queue × List Nat := if q.length > limit then dropAll q.length q else (q, [])

/-- What threads share: `struct Laik_Tcp_Server` (src/backends/tcp/server.c 30-39), and
sockets.  `sigRev`: special first entry of the queue has an event.  `sig`: bytes
sent to the signal socket and not received.  `told`: `laik_tcp_server_free` did wake up a
thread.  `freed`: sockets closed up to now.  `next`: number of sockets up to now. -/
structure Sh where
  queue : Queue
  sigRev : Bool
  sig : Nat
  returned : List Nat
  lock : Bool
  shutdown : Bool
  told : Bool
  freed : List Nat
  next : Nat

/-- Where a thread is: waiting for the lock in `laik_tcp_server_accept`, at the begin of
the loop in it (server.c 49), taking returned sockets (51-58), before the check of the
limit (61), in `laik_tcp_socket_queue_pop`, receiving from the signal socket
(socketqueue.c 109), with a socket just got from the queue (server.c 75), in
`laik_tcp_server_run` handling a connection (113), before `laik_tcp_socket_queue_cancel`
(116), or ended (122). -/
inductive Pc
  | want | top | drain | limit | pop | clear
  | got (s : Nat)
  | run (s : Nat)
  | signal | done
  deriving DecidableEq

/-- One step of a thread of the server with at most `limit` connections.  `signal` sends
nothing if the buffer of the signal socket is full, then there is a byte in it
(`sendFull`).  `run`: the function called for a connection, here with any result. -/
inductive TStep (limit : Nat) : Sh → Pc → Sh → Pc → Prop
  | enter (x : Sh) : x.lock = false → TStep limit x .want { x with lock := true } .top
  | stop (x : Sh) : x.shutdown = true → TStep limit x .top { x with lock := false } .done
  | go (x : Sh) : x.shutdown = false → TStep limit x .top x .drain
  | take (x : Sh) (s : Nat) (r : List Nat) : x.returned = s :: r →
      TStep limit x .drain { x with queue := push x.queue s, returned := r } .drain
  | drained (x : Sh) : x.returned = [] → TStep limit x .drain x .limit
  | limit (x : Sh) : TStep limit x .limit
      { x with queue := (limited limit x.queue).1, freed := x.freed ++ (limited limit x.queue).2 } .pop
  | poll (x : Sh) (ready : Nat → Bool) : x.sigRev = false → quiet x.queue = true →
      (0 < x.sig ∨ ∃ e ∈ x.queue, ready e.1 = true) →
      TStep limit x .pop { x with sigRev := decide (0 < x.sig), queue := polled ready x.queue } .pop
  | popSignal (x : Sh) : x.sigRev = true → TStep limit x .pop x .clear
  | popSock (x : Sh) (s : Nat) (q : Queue) : x.sigRev = false → firstReady x.queue = some (s, q) →
      TStep limit x .pop { x with queue := q } (.got s)
  | receive (x : Sh) : 0 < x.sig → TStep limit x .clear { x with sig := x.sig - 1024 } .clear
  | cleared (x : Sh) : x.sig = 0 → TStep limit x .clear { x with sigRev := false } .top
  | accept (x : Sh) : TStep limit x (.got 0)
      { x with queue := push x.queue 0, next := x.next + 1, lock := false } (.run x.next)
  | noAccept (x : Sh) : TStep limit x (.got 0) { x with queue := push x.queue 0 } .top
  | closed (x : Sh) (s : Nat) : s ≠ 0 → TStep limit x (.got s) { x with freed := x.freed ++ [s] } .top
  | input (x : Sh) (s : Nat) : s ≠ 0 → TStep limit x (.got s) { x with lock := false } (.run s)
  | fail (x : Sh) (s : Nat) : TStep limit x (.run s) { x with freed := x.freed ++ [s] } .want
  | ok (x : Sh) (s : Nat) : TStep limit x (.run s) { x with returned := x.returned ++ [s] } .signal
  | send (x : Sh) : TStep limit x .signal { x with sig := x.sig + 1 } .want
  | sendFull (x : Sh) : 0 < x.sig → TStep limit x .signal x .want

/-- Shared state and threads. -/
structure Sys where
  sh : Sh
  pcs : List Pc

/-- Steps of the threads, and of the thread which calls `laik_tcp_server_free`
(src/backends/tcp/server.c 132-134). -/
inductive Step (limit : Nat) : Sys → Sys → Prop
  | thread (x x' : Sh) (p p' : Pc) (a b : List Pc) : TStep limit x p x' p' →
      Step limit ⟨x, a ++ p :: b⟩ ⟨x', a ++ p' :: b⟩
  | shutdown (x : Sh) (ps : List Pc) : x.shutdown = false → Step limit ⟨x, ps⟩ ⟨{ x with shutdown := true }, ps⟩
  | tell (x : Sh) (ps : List Pc) : x.shutdown = true → x.told = false →
      Step limit ⟨x, ps⟩ ⟨{ x with told := true, sig := x.sig + 1 }, ps⟩
  | tellFull (x : Sh) (ps : List Pc) : x.shutdown = true → x.told = false → 0 < x.sig →
      Step limit ⟨x, ps⟩ ⟨{ x with told := true }, ps⟩

/-- `laik_tcp_server_new` with `n` threads, src/backends/tcp/server.c 163-195. -/
def init (n : Nat) : Sys := ⟨⟨[(0, false)], false, 0, [], false, false, false, [], 1⟩, List.replicate n .want⟩

/-- States which can be reached. -/
inductive Reach (limit n : Nat) : Sys → Prop
  | init : Reach limit n (init n)
  | step {s t : Sys} : Reach limit n s → Step limit s t → Reach limit n t

/-- Sockets closed by `laik_tcp_server_free` after the threads ended,
src/backends/tcp/server.c 143-156: those in the queue but the listening one, returned ones,
the listening one. -/
def freeRest (x : Sh) : List Nat := (x.queue.map Prod.fst).filter (· ≠ 0) ++ x.returned ++ [0]

/-- The socket a thread works with. -/
def Pc.held : Pc → List Nat
  | .got s => [s]
  | .run s => [s]
  | _ => []

/-- The thread has the lock. -/
def Pc.locked : Pc → Bool
  | .top | .drain | .limit | .pop | .clear | .got _ => true
  | _ => false

end Laik.Sv
