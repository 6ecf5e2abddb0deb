import Verif.Spec.TcpConfig

/-!
# Configuration of the TCP backend: contents and addresses

`src/backends/tcp/config.c`, `src/backends/tcp/config.h`, `src/backends/tcp/socket.c`.
The parser of GLib for key files is not modelled: a file is given by its groups, keys and
what the typed reads give (`Spec/TcpConfig`).  Floating point numbers are rational ones, so
"nan" and "inf" are not modelled.  One character is one byte.
-/

namespace Laik.Cf

/-- `Laik_Tcp_Config` without the counter, `src/backends/tcp/config.h` 24-43. -/
structure Config where
  addresses : List (List Char)
  backendAsyncSend : Bool
  backendNativeReduce : Bool
  backendPeerReduce : Bool
  clientConnections : Nat
  clientThreads : Nat
  serverConnections : Nat
  serverThreads : Nat
  socketBacklog : Nat
  socketTimeout : Rat
  inboxSize : Nat
  outboxSize : Nat
  sendAttempts : Nat
  sendDelay : Rat
  receiveAttempts : Nat
  receiveTimeout : Rat
  receiveDelay : Rat
  minimpiAsyncSplit : Bool
  deriving DecidableEq

/-- `g_key_file_has_key` and the reads after it: the entry of a key. -/
def entry (kf : KeyFile) (group key : String) : Option Val :=
  match kf.lookup group with
  | none => none
  | some l => l.lookup key

/-- The loop of `laik_tcp_config_parse_addresses`, `src/backends/tcp/config.c` 51-58: stops
at the first key which is not a string. -/
def addrLoop : List (String × Val) → List (List Char) → Option (List (List Char))
  | [], acc => some acc
  | (_, v) :: t, acc => match v.str with
    | none => none
    | some a => addrLoop t (acc ++ [a])

/-- `laik_tcp_config_parse_addresses`, `src/backends/tcp/config.c` 37-69: `none` is `false`
with an error pushed, else the new value of `*result`. -/
def parseAddresses (kf : KeyFile) (group : String) (result : List (List Char)) :
    Option (List (List Char)) :=
  match kf.lookup group with
  | none => some result
  | some keys => if keys.isEmpty then some result else addrLoop keys []

/-- `laik_tcp_config_parse_bool`, `src/backends/tcp/config.c` 71-97. -/
def parseBool (kf : KeyFile) (group key : String) (result : Bool) : Option Bool :=
  match entry kf group key with
  | none => some result
  | some v => match v.bool with
    | none => none
    | some b => some b

/-- `SIZE_MAX`. -/
def sizeMax : Nat := 2 ^ 64 - 1

/-- `laik_tcp_config_parse_size`, `src/backends/tcp/config.c` 99-124. -/
def parseSize (kf : KeyFile) (group key : String) (result : Nat) : Option Nat :=
  match entry kf group key with
  | none => some result
  | some v => match v.int with
    | none => none
    | some size => some (if size < 0 then sizeMax else size.toNat)

/-- `laik_tcp_config_parse_time`, `src/backends/tcp/config.c` 126-151. -/
def parseTime (kf : KeyFile) (group key : String) (result : Rat) : Option Rat :=
  match entry kf group key with
  | none => some result
  | some v => match v.dbl with
    | none => none
    | some time => if time < 0 then none else some time

/-- The environment: values of `atol` of the variables `OMPI_COMM_WORLD_SIZE` and
`PMI_SIZE` if they are set, numbers of the parent process and of this process. -/
structure Env where
  ompi : Option Int
  pmi : Option Int
  ppid : Nat
  pid : Nat

/-- `%zu`. -/
def dec (n : Nat) : List Char := Nat.toDigits 10 n

/-- The texts at the beginning of the formats of `src/backends/tcp/config.c` 160, 165, 168. -/
def openmpiPre : List Char :=
  ['l', 'a', 'i', 'k', '-', 't', 'c', 'p', '-', 'a', 'u', 't', 'o', '-', 'o', 'p', 'e', 'n',
   'm', 'p', 'i', '-']
def mpichPre : List Char :=
  ['l', 'a', 'i', 'k', '-', 't', 'c', 'p', '-', 'a', 'u', 't', 'o', '-', 'm', 'p', 'i', 'c',
   'h', '-']
def singlePre : List Char :=
  ['l', 'a', 'i', 'k', '-', 't', 'c', 'p', '-', 'a', 'u', 't', 'o', '-', 's', 'i', 'n', 'g',
   'l', 'e', '-']

/-- The formats of `src/backends/tcp/config.c` 160, 165, 168. -/
def openmpiName (ppid task : Nat) : List Char :=
  openmpiPre ++ dec ppid ++ '-' :: dec task
def mpichName (ppid task : Nat) : List Char :=
  mpichPre ++ dec ppid ++ '-' :: dec task
def singleName (pid : Nat) : List Char := singlePre ++ dec pid

/-- The addresses without Open MPI, `src/backends/tcp/config.c` 162-169. -/
def pmiAddresses (e : Env) : List (List Char) :=
  match e.pmi with
  | some n => if n > 0 then (List.range n.toNat).map (mpichName e.ppid) else [singleName e.pid]
  | none => [singleName e.pid]

/-- The addresses of `laik_tcp_config_new_default`, `src/backends/tcp/config.c` 154-169. -/
def defaultAddresses (e : Env) : List (List Char) :=
  match e.ompi with
  | some n => if n > 0 then (List.range n.toNat).map (openmpiName e.ppid) else pmiAddresses e
  | none => pmiAddresses e

/-- `laik_tcp_config_new_default`, `src/backends/tcp/config.c` 153-200. -/
def newDefault (e : Env) : Config where
  addresses := defaultAddresses e
  backendAsyncSend := true
  backendNativeReduce := false
  backendPeerReduce := true
  clientConnections := 64
  clientThreads := 4
  serverConnections := 64
  serverThreads := 4
  socketBacklog := 64
  socketTimeout := 10
  inboxSize := 16777216
  outboxSize := 16777216
  sendAttempts := 100
  sendDelay := 1 / 10
  receiveAttempts := 100
  receiveTimeout := 0
  receiveDelay := 1 / 10
  minimpiAsyncSplit := true

/-- The settings part of `laik_tcp_config_new_custom`, `src/backends/tcp/config.c` 235-253:
one after the other, each on the object changed so far. -/
def loadSettings (kf : KeyFile) (this : Config) : Option Config := do
  let v ← parseAddresses kf "addresses" this.addresses
  let this := { this with addresses := v }
  let v ← parseBool kf "general" "backend_async_send" this.backendAsyncSend
  let this := { this with backendAsyncSend := v }
  let v ← parseBool kf "general" "backend_native_reduce" this.backendNativeReduce
  let this := { this with backendNativeReduce := v }
  let v ← parseBool kf "general" "backend_peer_reduce" this.backendPeerReduce
  let this := { this with backendPeerReduce := v }
  let v ← parseSize kf "general" "client_connections" this.clientConnections
  let this := { this with clientConnections := v }
  let v ← parseSize kf "general" "client_threads" this.clientThreads
  let this := { this with clientThreads := v }
  let v ← parseSize kf "general" "server_connections" this.serverConnections
  let this := { this with serverConnections := v }
  let v ← parseSize kf "general" "server_threads" this.serverThreads
  let this := { this with serverThreads := v }
  let v ← parseSize kf "general" "socket_backlog" this.socketBacklog
  let this := { this with socketBacklog := v }
  let v ← parseTime kf "general" "socket_timeout" this.socketTimeout
  let this := { this with socketTimeout := v }
  let v ← parseSize kf "general" "inbox_size" this.inboxSize
  let this := { this with inboxSize := v }
  let v ← parseSize kf "general" "outbox_size" this.outboxSize
  let this := { this with outboxSize := v }
  let v ← parseSize kf "general" "send_attempts" this.sendAttempts
  let this := { this with sendAttempts := v }
  let v ← parseTime kf "general" "send_delay" this.sendDelay
  let this := { this with sendDelay := v }
  let v ← parseSize kf "general" "receive_attempts" this.receiveAttempts
  let this := { this with receiveAttempts := v }
  let v ← parseTime kf "general" "receive_timeout" this.receiveTimeout
  let this := { this with receiveTimeout := v }
  let v ← parseTime kf "general" "receive_delay" this.receiveDelay
  let this := { this with receiveDelay := v }
  let v ← parseBool kf "general" "minimpi_async_split" this.minimpiAsyncSplit
  let this := { this with minimpiAsyncSplit := v }
  some this

/-- What `LAIK_TCP_CONFIG` leads to: not set, a file which cannot be read or is no key file
(`src/backends/tcp/config.c` 215-233), or a key file. -/
inductive File
  | unset
  | bad
  | ok (kf : KeyFile)

/-- `laik_tcp_config_new_custom`, `src/backends/tcp/config.c` 202-258; `none`: errors pushed
and `NULL`. -/
def newCustom (e : Env) (f : File) : Option Config :=
  match f with
  | .unset => some (newDefault e)
  | .bad => none
  | .ok kf => loadSettings kf (newDefault e)

/-- Separators of `strsep`, `src/backends/tcp/socket.c` 120. -/
def isSep (c : Char) : Bool := c == ' ' || c == '\t' || c == '\n'

/-- Where `laik_tcp_socket_new` connects or binds to: host and port for `getaddrinfo`, the
first bytes of `sun_path` given to the kernel, or an error. -/
inductive Target
  | noRank
  | tcp (host port : List Char)
  | unixName (name : List Char)
  | tooLong
  deriving DecidableEq

/-- `sizeof (sockaddr_un->sun_path)`. -/
def sunPath : Nat := 108

/-- `strsep (&remainder, " \t\n")`, `src/backends/tcp/socket.c` 118-120: the first word and
the rest after the separator (`none`: `NULL`). -/
def strsep (a : List Char) : List Char × Option (List Char) :=
  (a.takeWhile (fun c => !isSep c),
   match a.dropWhile (fun c => !isSep c) with
   | [] => none
   | _ :: r => some r)

/-- `snprintf` with the format "%c%s" and a zero byte into `sun_path`, filled with zero
bytes before (`src/backends/tcp/socket.c` 152-156): at most `size - 1` bytes are written
and then a zero byte. -/
def snprintfPath (a : List Char) : List Char :=
  let out := (Char.ofNat 0 :: a).take (sunPath - 1)
  out ++ List.replicate (sunPath - out.length) (Char.ofNat 0)

/-- Choice of the address in `laik_tcp_socket_new`, `src/backends/tcp/socket.c` 110-173. -/
def target (addresses : List (List Char)) (rank : Nat) : Target :=
  match addresses[rank]? with
  | none => .noRank
  | some a => match strsep a with
    | (w, some r) => .tcp w r
    | (_, none) =>
      let bytes := 1 + a.length
      if bytes > sunPath then .tooLong else .unixName ((snprintfPath a).take bytes)

end Laik.Cf
