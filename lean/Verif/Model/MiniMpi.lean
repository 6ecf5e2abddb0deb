import Mathlib.Logic.Function.Basic
import Verif.Spec.MiniMpi
/-!
# Model of message passing in the TCP backend based on GLib
(`src/backends/tcp/minimpi.c`, `messenger.c`, `map.c`)
-/

namespace Laik.Mm

open Function

variable {β : Type}

/-- Header of a message, src/backends/tcp/minimpi.c 104-111: six numbers of
64 bit (here without limit). -/
structure Hd where
  gen : Nat
  ty : Nat
  snd : Nat
  rcv : Nat
  tag : Nat
  ser : Nat
  deriving DecidableEq, Repr

/-- `flows`, src/backends/tcp/minimpi.c 64, 115-121: last serial for a header with serial 0. -/
abbrev Flows := Hd → Option Nat

/-- `laik_tcp_minimpi_header`, src/backends/tcp/minimpi.c 96-124. The lock is the
reason for this to be one step. -/
def header (fl : Flows) (gen ty snd rcv tag : Nat) : Hd × Flows :=
  let key : Hd := ⟨gen, ty, snd, rcv, tag, 0⟩
  match fl key with
  | some n => ({ key with ser := n + 1 }, update fl key (some (n + 1)))
  | none => (key, update fl key (some 0))

/-- `SIZE_MAX` -/
def sizeMax : Nat := 2 ^ 64 - 1

/-- `laik_tcp_map_minus`, src/backends/tcp/map.c 41-43. -/
def minus (x y : Nat) : Nat := if x ≥ y then x - y else 0

/-- `laik_tcp_map_plus`, src/backends/tcp/map.c 45-47. -/
def plus (x y : Nat) : Nat := if sizeMax - x ≥ y then x + y else sizeMax

/-- `Laik_Tcp_Map`, src/backends/tcp/map.c 27-35. The hash table is a list of
keys with values; a key whose value is NULL (discarded) has `none`. -/
structure Box where
  tab : List (Hd × Option Body)
  size : Nat
  limit : Nat
  deriving Repr

/-- `g_hash_table_lookup_extended`: `none` if the key is missing. -/
def look (l : List (Hd × Option Body)) (h : Hd) : Option (Option Body) :=
  match l with
  | [] => none
  | e :: l => if e.1 = h then some e.2 else look l h

def Box.look (b : Box) (h : Hd) : Option (Option Body) := Mm.look b.tab h

/-- `laik_tcp_map_new`, src/backends/tcp/map.c 148-167. -/
def Box.new (limit : Nat) : Box := ⟨[], 0, limit⟩

/-- `laik_tcp_map_add`, src/backends/tcp/map.c 49-68. -/
def Box.add (b : Box) (h : Hd) (v : Body) : Box :=
  match b.look h with
  | some _ => b
  | none => { b with tab := (h, some v) :: b.tab, size := plus b.size v.length }

/-- `laik_tcp_map_discard`, src/backends/tcp/map.c 84-109. -/
def Box.discard (b : Box) (h : Hd) : Box :=
  if b.limit = sizeMax then b
  else match b.look h with
    | some (some v) =>
        { b with tab := b.tab.map (fun e => if e.1 = h then (h, none) else e)
                 size := minus b.size v.length }
    | _ => b

/-- `laik_tcp_map_get`, src/backends/tcp/map.c 129-146, after waiting. -/
def Box.get (b : Box) (h : Hd) : Option Body :=
  match b.look h with
  | some (some v) => some v
  | _ => none

/-- `laik_tcp_map_try`, src/backends/tcp/map.c 169-195. -/
def Box.tryAdd (b : Box) (h : Hd) (v : Body) : Bool × Box :=
  match b.look h with
  | some _ => (true, b)
  | none =>
    if plus b.size v.length > b.limit then (false, b)
    else (true, { b with tab := (h, some v) :: b.tab, size := plus b.size v.length })

/-- What the thread of a process is doing. `blocked`: in `laik_tcp_map_block` of
`laik_tcp_messenger_push` (messenger.c 268). `getting`: in the loop of
`laik_tcp_messenger_get` (messenger.c 206-222) with `att` attempts done;
`peer` is the process asked. `syncing`: in the loop of `laik_tcp_messenger_send`
(messenger.c 285-305). `failed`: an error was returned as there were too many
attempts; LAIK then stops. `dead`: `laik_tcp_always` failed. -/
inductive Pc (β : Type)
  | run (k : Prog β)
  | blocked (k : Prog β)
  | getting (m : Rcv) (peer : Nat) (h : Hd) (att : Nat) (k : Body → Prog β)
  | syncing (peer : Nat) (h : Hd) (k : Prog β)
  | failed (m : Rcv) (k : Body → Prog β)
  | dead

/-- State of a process: the thread of the application, `flows`, inbox and outbox of
the messenger, and the thread started by `laik_tcp_async_new` (minimpi.c 410) with the
messages it still has to send and whether it is in `laik_tcp_map_block`. -/
structure Proc (β : Type) where
  pc : Pc β
  flows : Flows
  inbox : Box
  outbox : Box
  bg : List Snd
  bgBlk : Bool

/-- Work of client and server threads, and data on connections.
* `tryTask p q h`: task TRY queued at `p` (messenger.c 265)
* `tryMsg p q h b`: TRY sent to `q` (messenger.c 93-95)
* `disc p h`: `p` is to discard `h` in its outbox: a TRY was accepted (messenger.c
  96-99), or a GET was answered (messenger.c 149)
* `getReq q p h`: GET queued at `q` or sent to `p` (messenger.c 80-82, 220)
* `getRep q h b`: answer to GET with body (messenger.c 147-148)
* `addMsg p q h b`: ADD sent to `q` (messenger.c 71-73), `addAck p h`: its answer -/
inductive Item
  | tryTask (p q : Nat) (h : Hd)
  | tryMsg (p q : Nat) (h : Hd) (b : Body)
  | disc (p : Nat) (h : Hd)
  | getReq (q p : Nat) (h : Hd)
  | getRep (q : Nat) (h : Hd) (b : Body)
  | addMsg (p q : Nat) (h : Hd) (b : Body)
  | addAck (p : Nat) (h : Hd)
  deriving DecidableEq

structure Sys (β : Type) where
  proc : Nat → Proc β
  net : List Item

/-- Start: src/backends/tcp/minimpi.c 625-628 and messenger.c 239-244. -/
def Sys.start (il ol : Nat) (prog : Nat → Prog β) : Sys β :=
  ⟨fun p => ⟨.run (prog p), fun _ => none, .new il, .new ol, [], false⟩, []⟩

/-- `laik_tcp_minimpi_lookup`, src/backends/tcp/minimpi.c 87-93, with the checks of
`laik_tcp_minimpi_send` and `_recv` (644-645, 735-736); `none`: abort. -/
def peerOf (c : Comm) (rank other : Nat) : Option Nat :=
  if other = rank then none else c.tasks[other]?

/-- Begin of `laik_tcp_minimpi_send` up to the insertion into the outbox
(src/backends/tcp/minimpi.c 748-751, messenger.c 262 or 282): new state, header. -/
def Proc.put (P : Proc β) (m : Snd) : Proc β × Hd :=
  let r := header P.flows m.c.gen m.ty m.rank m.dst m.tag
  ({ P with flows := r.2, outbox := P.outbox.add r.1 m.body }, r.1)

/-- Begin of `laik_tcp_minimpi_recv` (src/backends/tcp/minimpi.c 657): new state, header. -/
def Proc.ask (P : Proc β) (m : Rcv) : Proc β × Hd :=
  let r := header P.flows m.c.gen m.ty m.src m.rank m.tag
  ({ P with flows := r.2 }, r.1)

/-- State with process `p` replaced. -/
def Sys.setP (σ : Sys β) (p : Nat) (P : Proc β) : Sys β := { σ with proc := update σ.proc p P }

/-- A step. `A` is `receive_attempts`; `L x`: item `x` may be lost, as connections may
break at any time (any failing `CHECK` in messenger.c).
Simplifications: `send_attempts` has no limit; the loop of `laik_tcp_messenger_send` may
notice that the message was taken while an ADD is under way; time is not modelled, a
lookup may fail at any time before the message is there. -/
inductive Step (A : Nat) (L : Item → Prop) : Sys β → Sys β → Prop
  /-- `laik_tcp_minimpi_send` / `laik_tcp_messenger_push`, messenger.c 254-265 -/
  | push (σ : Sys β) (p q : Nat) (m : Snd) (k : Prog β)
      (h : (σ.proc p).pc = .run (.send m k)) (hq : peerOf m.c m.rank m.dst = some q) :
      Step A L σ ⟨update σ.proc p { ((σ.proc p).put m).1 with pc := .blocked k },
        .tryTask p q ((σ.proc p).put m).2 :: σ.net⟩
  /-- end of `laik_tcp_map_block`, map.c 77-79 -/
  | unblock (σ : Sys β) (p : Nat) (k : Prog β) (h : (σ.proc p).pc = .blocked k)
      (hs : ¬ (σ.proc p).outbox.size > (σ.proc p).outbox.limit) :
      Step A L σ (σ.setP p { σ.proc p with pc := .run k })
  /-- `laik_tcp_messenger_send`, messenger.c 271-282 -/
  | sync (σ : Sys β) (p q : Nat) (m : Snd) (k : Prog β)
      (h : (σ.proc p).pc = .run (.ssend m k)) (hq : peerOf m.c m.rank m.dst = some q) :
      Step A L σ (σ.setP p
        { ((σ.proc p).put m).1 with pc := .syncing q ((σ.proc p).put m).2 k })
  /-- messenger.c 290, 69-73 -/
  | addSend (σ : Sys β) (p q : Nat) (hd : Hd) (k : Prog β) (b : Body)
      (h : (σ.proc p).pc = .syncing q hd k) (hb : (σ.proc p).outbox.get hd = some b) :
      Step A L σ { σ with net := .addMsg p q hd b :: σ.net }
  /-- messenger.c 139-142 -/
  | addRecv (σ : Sys β) (p q : Nat) (hd : Hd) (b : Body) (h : Item.addMsg p q hd b ∈ σ.net) :
      Step A L σ ⟨update σ.proc q { σ.proc q with inbox := (σ.proc q).inbox.add hd b },
        .addAck p hd :: σ.net.erase (.addMsg p q hd b)⟩
  /-- messenger.c 74-76, 290-293 -/
  | addDone (σ : Sys β) (p q : Nat) (hd : Hd) (k : Prog β)
      (h : (σ.proc p).pc = .syncing q hd k) (hn : Item.addAck p hd ∈ σ.net) :
      Step A L σ ⟨update σ.proc p
        { σ.proc p with pc := .run k, outbox := (σ.proc p).outbox.discard hd },
        σ.net.erase (.addAck p hd)⟩
  /-- messenger.c 298-301 -/
  | syncGone (σ : Sys β) (p q : Nat) (hd : Hd) (k : Prog β)
      (h : (σ.proc p).pc = .syncing q hd k) (hb : (σ.proc p).outbox.get hd = none) :
      Step A L σ (σ.setP p { σ.proc p with pc := .run k })
  /-- `laik_tcp_minimpi_recv`, minimpi.c 657-659 -/
  | ask (σ : Sys β) (p q : Nat) (m : Rcv) (k : Body → Prog β)
      (h : (σ.proc p).pc = .run (.recv m k)) (hq : peerOf m.c m.rank m.src = some q) :
      Step A L σ (σ.setP p
        { ((σ.proc p).ask m).1 with pc := .getting m q ((σ.proc p).ask m).2 0 k })
  /-- messenger.c 211-217 -/
  | hit (σ : Sys β) (p q : Nat) (m : Rcv) (hd : Hd) (att : Nat) (k : Body → Prog β) (b : Body)
      (h : (σ.proc p).pc = .getting m q hd att k) (ha : att < A)
      (hb : (σ.proc p).inbox.get hd = some b) :
      Step A L σ (σ.setP p
        { σ.proc p with pc := .run (k b), inbox := (σ.proc p).inbox.discard hd })
  /-- messenger.c 218-221 -/
  | miss (σ : Sys β) (p q : Nat) (m : Rcv) (hd : Hd) (att : Nat) (k : Body → Prog β)
      (h : (σ.proc p).pc = .getting m q hd att k) (ha : att < A)
      (hb : (σ.proc p).inbox.get hd = none) :
      Step A L σ ⟨update σ.proc p { σ.proc p with pc := .getting m q hd (att + 1) k },
        .getReq p q hd :: σ.net⟩
  /-- messenger.c 224-226 -/
  | fail (σ : Sys β) (p q : Nat) (m : Rcv) (hd : Hd) (att : Nat) (k : Body → Prog β)
      (h : (σ.proc p).pc = .getting m q hd att k) (ha : ¬ att < A) :
      Step A L σ (σ.setP p { σ.proc p with pc := .failed m k })
  /-- `laik_tcp_always` in a send, minimpi.c 90, 735-736 -/
  | deadSend (σ : Sys β) (p : Nat) (m : Snd) (k : Prog β)
      (h : (σ.proc p).pc = .run (.send m k) ∨ (σ.proc p).pc = .run (.ssend m k))
      (hq : peerOf m.c m.rank m.dst = none) :
      Step A L σ (σ.setP p { σ.proc p with pc := .dead })
  /-- `laik_tcp_always` in a receive, minimpi.c 90, 644-645 -/
  | deadRecv (σ : Sys β) (p : Nat) (m : Rcv) (k : Body → Prog β)
      (h : (σ.proc p).pc = .run (.recv m k)) (hq : peerOf m.c m.rank m.src = none) :
      Step A L σ (σ.setP p { σ.proc p with pc := .dead })
  /-- `laik_tcp_async_new`, minimpi.c 410; called only if no other thread is left -/
  | fork (σ : Sys β) (p : Nat) (ms : List Snd) (k : Prog β)
      (h : (σ.proc p).pc = .run (.fork ms k)) (hb : (σ.proc p).bg = [])
      (hc : (σ.proc p).bgBlk = false) :
      Step A L σ (σ.setP p { σ.proc p with pc := .run k, bg := ms })
  /-- `laik_tcp_minimpi_run_async_split`, minimpi.c 211-216 -/
  | bgPush (σ : Sys β) (p q : Nat) (m : Snd) (ms : List Snd)
      (h : (σ.proc p).bg = m :: ms) (hc : (σ.proc p).bgBlk = false)
      (hq : peerOf m.c m.rank m.dst = some q) :
      Step A L σ ⟨update σ.proc p { ((σ.proc p).put m).1 with bg := ms, bgBlk := true },
        .tryTask p q ((σ.proc p).put m).2 :: σ.net⟩
  /-- `laik_tcp_always` in the other thread, minimpi.c 90 -/
  | deadBg (σ : Sys β) (p : Nat) (m : Snd) (ms : List Snd)
      (h : (σ.proc p).bg = m :: ms) (hc : (σ.proc p).bgBlk = false)
      (hq : peerOf m.c m.rank m.dst = none) :
      Step A L σ (σ.setP p { σ.proc p with pc := .dead })
  /-- end of `laik_tcp_map_block` in the other thread, map.c 77-79 -/
  | bgUnblock (σ : Sys β) (p : Nat) (hc : (σ.proc p).bgBlk = true)
      (hs : ¬ (σ.proc p).outbox.size > (σ.proc p).outbox.limit) :
      Step A L σ (σ.setP p { σ.proc p with bgBlk := false })
  /-- `laik_tcp_async_wait`, minimpi.c 434 -/
  | join (σ : Sys β) (p : Nat) (k : Prog β)
      (h : (σ.proc p).pc = .run (.join k)) (hb : (σ.proc p).bg = [])
      (hc : (σ.proc p).bgBlk = false) :
      Step A L σ (σ.setP p { σ.proc p with pc := .run k })
  /-- messenger.c 91-95 -/
  | trySend (σ : Sys β) (p q : Nat) (hd : Hd) (b : Body) (h : Item.tryTask p q hd ∈ σ.net)
      (hb : (σ.proc p).outbox.get hd = some b) :
      Step A L σ { σ with net := .tryMsg p q hd b :: σ.net.erase (.tryTask p q hd) }
  /-- messenger.c 91, failing -/
  | tryDrop (σ : Sys β) (p q : Nat) (hd : Hd) (h : Item.tryTask p q hd ∈ σ.net)
      (hb : (σ.proc p).outbox.get hd = none) :
      Step A L σ { σ with net := σ.net.erase (.tryTask p q hd) }
  /-- messenger.c 155-159, accepted -/
  | tryRecv (σ : Sys β) (p q : Nat) (hd : Hd) (b : Body) (h : Item.tryMsg p q hd b ∈ σ.net)
      (hr : ((σ.proc q).inbox.tryAdd hd b).1 = true) :
      Step A L σ ⟨update σ.proc q { σ.proc q with inbox := ((σ.proc q).inbox.tryAdd hd b).2 },
        .disc p hd :: σ.net.erase (.tryMsg p q hd b)⟩
  /-- messenger.c 155-159, refused -/
  | tryRefuse (σ : Sys β) (p q : Nat) (hd : Hd) (b : Body) (h : Item.tryMsg p q hd b ∈ σ.net)
      (hr : ((σ.proc q).inbox.tryAdd hd b).1 = false) :
      Step A L σ { σ with net := σ.net.erase (.tryMsg p q hd b) }
  /-- messenger.c 98, 149 -/
  | disc (σ : Sys β) (p : Nat) (hd : Hd) (h : Item.disc p hd ∈ σ.net) :
      Step A L σ ⟨update σ.proc p { σ.proc p with outbox := (σ.proc p).outbox.discard hd },
        σ.net.erase (.disc p hd)⟩
  /-- messenger.c 146-149 -/
  | getSend (σ : Sys β) (q p : Nat) (hd : Hd) (b : Body) (h : Item.getReq q p hd ∈ σ.net)
      (hb : (σ.proc p).outbox.get hd = some b) :
      Step A L σ { σ with net := .getRep q hd b :: .disc p hd :: σ.net.erase (.getReq q p hd) }
  /-- messenger.c 151 -/
  | getNone (σ : Sys β) (q p : Nat) (hd : Hd) (h : Item.getReq q p hd ∈ σ.net)
      (hb : (σ.proc p).outbox.get hd = none) :
      Step A L σ { σ with net := σ.net.erase (.getReq q p hd) }
  /-- messenger.c 84-87 -/
  | getRecv (σ : Sys β) (q : Nat) (hd : Hd) (b : Body) (h : Item.getRep q hd b ∈ σ.net) :
      Step A L σ ⟨update σ.proc q { σ.proc q with inbox := (σ.proc q).inbox.add hd b },
        σ.net.erase (.getRep q hd b)⟩
  /-- a connection breaks -/
  | lose (σ : Sys β) (x : Item) (h : x ∈ σ.net) (hl : L x) :
      Step A L σ { σ with net := σ.net.erase x }

/-- Executions. -/
inductive Steps (A : Nat) (L : Item → Prop) (σ : Sys β) : Sys β → Prop
  | refl : Steps A L σ σ
  | tail {τ υ : Sys β} (h : Steps A L σ τ) (hs : Step A L τ υ) : Steps A L σ υ

/-- The program a thread still has to do. -/
def Pc.abs : Pc β → Prog β
  | .run k => k
  | .blocked k => k
  | .getting m _ _ _ k => .recv m k
  | .syncing _ _ k => k
  | .failed m k => .recv m k
  | .dead => .err

end Laik.Mm
