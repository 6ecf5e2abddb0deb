/-!
# Messages on a connection of the TCP backend based on GLib
(`src/backends/tcp/socket.c`, `messenger.c`, `client.c`)

Bytes are natural numbers.
-/

namespace Laik.Cn

abbrev Bytes := List Nat

/-- `k` bytes of a number in little endian order; with 8 bytes:
`laik_tcp_socket_send_uint64`, src/backends/tcp/socket.c 368-374. -/
def enc : Nat → Nat → Bytes
  | 0, _ => []
  | k + 1, n => n % 256 :: enc k (n / 256)

/-- Number with given bytes, `laik_tcp_socket_receive_uint64`,
src/backends/tcp/socket.c 308-319. -/
def dec : Bytes → Nat
  | [] => 0
  | b :: l => b + 256 * dec l

/-- `laik_tcp_socket_send_bytes`, src/backends/tcp/socket.c 321-337. -/
def encBytes (b : Bytes) : Bytes := enc 8 b.length ++ b

/-- Requests: ADD, GET and TRY of src/backends/tcp/messenger.c 39-43. -/
inductive Req
  | add (header body : Bytes)
  | get (header : Bytes)
  | tryAdd (header body : Bytes)
  deriving DecidableEq, Repr

/-- What the client sends, src/backends/tcp/messenger.c 69-73, 80-82, 91-95. -/
def Req.enc : Req → Bytes
  | .add h b => Cn.enc 8 0 ++ (encBytes h ++ encBytes b)
  | .get h => Cn.enc 8 1 ++ encBytes h
  | .tryAdd h b => Cn.enc 8 2 ++ (encBytes h ++ encBytes b)

/-- Answers of the server: 1, 0, or 1 with a body. -/
inductive Rep
  | accepted | refused
  | body (b : Bytes)
  deriving DecidableEq, Repr

/-- What the server sends, src/backends/tcp/messenger.c 142, 147-148, 151, 158. -/
def Rep.enc : Rep → Bytes
  | .accepted => Cn.enc 8 1
  | .refused => Cn.enc 8 0
  | .body b => Cn.enc 8 1 ++ encBytes b

/-- Result of looking at the bytes received up to now: at most so many more bytes are
requested with the next `recv`, the message with what comes after it, or an error. -/
inductive Parse (α : Type)
  | more (n : Nat)
  | done (a : α) (rest : Bytes)
  | bad

/-- `laik_tcp_socket_receive_data`, src/backends/tcp/socket.c 277-306: receive `n` bytes,
then go on with them and what comes after them. -/
def readN {α : Type} (n : Nat) (g : Bytes) (k : Bytes → Bytes → Parse α) : Parse α :=
  if g.length < n then .more (n - g.length) else k (g.take n) (g.drop n)

/-- `laik_tcp_socket_receive_uint64`, src/backends/tcp/socket.c 308-319. -/
def read64 {α : Type} (g : Bytes) (k : Nat → Bytes → Parse α) : Parse α := readN 8 g fun a r => k (dec a) r

/-- `laik_tcp_socket_receive_bytes`, src/backends/tcp/socket.c 259-275.  Allocation of 2^63
or more bytes always fails. -/
def readBytes {α : Type} (g : Bytes) (k : Bytes → Bytes → Parse α) : Parse α :=
  read64 g fun n r => if 2 ^ 63 ≤ n then .bad else readN n r k

/-- Receipt of a request by the server, src/backends/tcp/messenger.c 133-163. -/
def parseReq (g : Bytes) : Parse Req :=
  read64 g fun ty r => readBytes r fun h r =>
    if ty = 0 then readBytes r fun b r => .done (.add h b) r
    else if ty = 1 then .done (.get h) r
    else if ty = 2 then readBytes r fun b r => .done (.tryAdd h b) r
    else .bad

/-- Receipt of the answer to a request by the client, src/backends/tcp/messenger.c 74-75,
83-86, 96-99. -/
def parseRep (q : Req) (g : Bytes) : Parse Rep :=
  read64 g fun resp r =>
    match q with
    | .add _ _ => if resp = 0 then .bad else .done .accepted r
    | .get _ => if resp = 0 then .done .refused r else readBytes r fun b r => .done (.body b) r
    | .tryAdd _ _ => if resp = 0 then .done .refused r else .done .accepted r

/-- Sizes which can be handled. -/
def Req.ok : Req → Prop
  | .add h b => h.length < 2 ^ 63 ∧ b.length < 2 ^ 63
  | .get h => h.length < 2 ^ 63
  | .tryAdd h b => h.length < 2 ^ 63 ∧ b.length < 2 ^ 63

/-- Answers the server may give to a request, src/backends/tcp/messenger.c 138-159. -/
def fits : Req → Rep → Prop
  | .add _ _, .accepted => True
  | .get _, .refused => True
  | .get _, .body b => b.length < 2 ^ 63
  | .tryAdd _ _, .accepted => True
  | .tryAdd _ _, .refused => True
  | _, _ => False

/-- Client side of a connection: not used (stored in `this->sockets` of client.c), sending
the rest of a request, receiving the answer (bytes up to now), or closed. -/
inductive Cl
  | idle
  | sending (q : Req) (v : Bytes)
  | reading (q : Req) (g : Bytes)
  | closed

/-- Server side of a connection: receiving a request (with no bytes up to now the
connection is in the queue of server.c), sending the rest of an answer, or closed. -/
inductive Se
  | reading (g : Bytes)
  | sending (v : Bytes)
  | closed

/-- A connection.  `up`, `down`: bytes on the way to the server and back.  `started`,
`completed`: requests started by the client, and those with answer.  `handled`: requests
handled by the server, with answer. -/
structure Conn where
  c : Cl
  s : Se
  up : Bytes
  down : Bytes
  started : List Req
  completed : List (Req × Rep)
  handled : List (Req × Rep)

/-- After sending, with the rest `v`. -/
def Cl.after (q : Req) (v : Bytes) : Cl := if v = [] then .reading q [] else .sending q v

/-- After sending, with the rest `v`: the function of the server returns, and the
connection is put back into the queue. -/
def Se.after (v : Bytes) : Se := if v = [] then .reading [] else .sending v

/-- Work of client and server on a connection which can buffer `cap` bytes in each
direction.  Each transfer is one call of `send` or `recv` in the loops of
`laik_tcp_socket_send_data` (src/backends/tcp/socket.c 339-366) and
`laik_tcp_socket_receive_data` (277-306). -/
inductive Work (cap : Nat) : Conn → Conn → Prop
  | cSend (x : Conn) (q : Req) (v : Bytes) (k : Nat) : x.c = .sending q v → 0 < k → k ≤ v.length → x.up.length + k ≤ cap →
      Work cap x { x with c := .after q (v.drop k), up := x.up ++ v.take k }
  | sRecv (x : Conn) (g : Bytes) (n k : Nat) : x.s = .reading g → parseReq g = .more n → 0 < k → k ≤ n → k ≤ x.up.length →
      Work cap x { x with s := .reading (g ++ x.up.take k), up := x.up.drop k }
  | sHandle (x : Conn) (g r : Bytes) (q : Req) (a : Rep) : x.s = .reading g → parseReq g = .done q r → fits q a →
      Work cap x { x with s := .sending a.enc, handled := x.handled ++ [(q, a)] }
  | sSend (x : Conn) (v : Bytes) (k : Nat) : x.s = .sending v → 0 < k → k ≤ v.length → x.down.length + k ≤ cap →
      Work cap x { x with s := .after (v.drop k), down := x.down ++ v.take k }
  | cRecv (x : Conn) (q : Req) (g : Bytes) (n k : Nat) : x.c = .reading q g → parseRep q g = .more n → 0 < k → k ≤ n → k ≤ x.down.length →
      Work cap x { x with c := .reading q (g ++ x.down.take k), down := x.down.drop k }
  | cDone (x : Conn) (q : Req) (g r : Bytes) (a : Rep) : x.c = .reading q g → parseRep q g = .done a r →
      Work cap x { x with c := .idle, completed := x.completed ++ [(q, a)] }

/-- Steps: work; start of a request on an unused connection
(`laik_tcp_client_connect`, src/backends/tcp/client.c 65-94); both sides may close the
connection at any time (timeouts, errors, too many connections), or have to after an
error; bytes on the way may get lost if one side is closed. -/
inductive Step (cap : Nat) : Conn → Conn → Prop
  | work {x y : Conn} : Work cap x y → Step cap x y
  | start (x : Conn) (q : Req) : x.c = .idle → q.ok → Step cap x { x with c := .sending q q.enc, started := x.started ++ [q] }
  | cClose (x : Conn) : Step cap x { x with c := .closed }
  | sClose (x : Conn) : Step cap x { x with s := .closed }
  | lose (x : Conn) (i j : Nat) : x.c = .closed ∨ x.s = .closed → Step cap x { x with up := x.up.take i, down := x.down.take j }

/-- A new connection: `laik_tcp_socket_accept`, src/backends/tcp/socket.c 48-60, and
`laik_tcp_socket_new`. -/
def Conn.new : Conn := ⟨.idle, .reading [], [], [], [], [], []⟩

/-- States of a connection which can be reached. -/
inductive Reach (cap : Nat) : Conn → Prop
  | new : Reach cap .new
  | step {x y : Conn} : Reach cap x → Step cap x y → Reach cap y

/-! ### Unused connections of the client -/

/-- Search in `laik_tcp_client_connect`, src/backends/tcp/client.c 68-89.  Entries are
address and socket, `closed` are sockets for which the other side ended.  Result: socket,
entries which stay, sockets closed. -/
def connect (closed : Nat → Bool) (addr : Nat) : List (Nat × Nat) → Option Nat × List (Nat × Nat) × List Nat
  | [] => (none, [], [])
  | e :: l =>
    if e.1 = addr then
      if closed e.2 then
        let r := connect closed addr l
        (r.1, r.2.1, e.2 :: r.2.2)
      else (some e.2, l, [])
    else
      let r := connect closed addr l
      (r.1, e :: r.2.1, r.2.2)

/-- `laik_tcp_client_store`, src/backends/tcp/client.c 140-159.  Result: entries, sockets
closed. -/
def store (limit : Nat) (addr s : Nat) (l : List (Nat × Nat)) : List (Nat × Nat) × List Nat :=
  if (l ++ [(addr, s)]).length > limit then ([], (l ++ [(addr, s)]).map Prod.snd) else (l ++ [(addr, s)], [])

end Laik.Cn
