import Verif.Model.TcpFrame
import Verif.Model.Layout
import Verif.Model.SpaceCodec
/-!
# Model of sending and receiving a range in the TCP backend

`send_range` and `recv_range` of `src/backend-tcp2.c`.  Memory maps addresses
(in elements) to the bytes of an element.
-/

namespace Laik.Tcp
open Laik.Lay Laik.Codec

/-- What may go wrong at the sender: failed assert, write beyond a buffer,
loop bound exhausted (not a fault of the code). -/
inductive SFault where
  | assert
  | overflow
  | fuel
  deriving DecidableEq, Repr

/-! ### Sender -/

/-- `SBUF_LEN`, src/backend-tcp2.c 2112. -/
def sbufLen : Nat := 8 * 1024

/-- The send buffer, src/backend-tcp2.c 2113-2115: `data` are the bytes from
position 3 up to `sbuf_used`, `toLID` is `none` for -1.  `out` is what was
written to the connection. -/
structure SBuf where
  data : Bytes := []
  toLID : Option Nat := none
  out : Bytes := []
  deriving DecidableEq, Repr

/-- `send_data_bin_flush`, src/backend-tcp2.c 2117-2131 (`sbuf_used` is never
0).  `send_bin` (668) writes everything. -/
def binFlush (lid : Nat) (s : SBuf) : Except SFault SBuf :=
  if s.toLID = some lid then
    .ok { data := [], toLID := none,
          out := s.out ++ 66 :: UInt8.ofNat (s.data.length % 256) ::
            UInt8.ofNat (s.data.length / 256) :: s.data }
  else .error .assert

/-- `memcpy` into the send buffer, src/backend-tcp2.c 2138-2144. -/
def binPut (lid : Nat) (e : Bytes) (s : SBuf) : Except SFault SBuf :=
  if s.toLID = none ∨ s.toLID = some lid then
    if 3 + s.data.length + e.length ≤ sbufLen then
      .ok { s with data := s.data ++ e, toLID := some lid }
    else .error .overflow
  else .error .assert

/-- `send_data_bin`, src/backend-tcp2.c 2133-2153, without log output. -/
def sendBin (lid : Nat) (s : SBuf) (_n : Nat) (_i : Idx) (e : Bytes) : Except SFault SBuf :=
  if 3 + s.data.length + e.length > sbufLen then (binFlush lid s).bind (binPut lid e)
  else binPut lid e s

/-- `istr`, src/backend-tcp2.c 334-351: coordinates printed as
`unsigned long long`. -/
def istr (d : Dims) (i : Idx) : List Char :=
  let u (v : Int) : List Char := digits (v % 2 ^ 64).toNat
  match d with
  | .d1 => u i.x
  | .d2 => u i.x ++ '/' :: u i.y
  | .d3 => u i.x ++ '/' :: (u i.y ++ '/' :: u i.z)

/-- The result of `istr` with the terminating 0 fits `str[50]`. -/
def istrFits (d : Dims) (i : Idx) : Prop := (istr d i).length + 1 ≤ 50

instance (d : Dims) (i : Idx) : Decidable (istrFits d i) := by unfold istrFits; infer_instance

/-- Position in the traversal, `"(%d:%s)"`, src/backend-tcp2.c 777 and 2094. -/
def posStr (n : Nat) (d : Dims) (i : Idx) : List Char :=
  '(' :: (digits n ++ ':' :: (istr d i ++ [')']))

/-- Digit of `%x`. -/
def hexChar (n : Nat) : Char := if n < 10 then Char.ofNat (48 + n) else Char.ofNat (87 + n)

/-- `" %02x"` for each byte, src/backend-tcp2.c 2095-2098. -/
def hexStr : Bytes → List Char
  | [] => []
  | b :: bs => ' ' :: hexChar (b.toNat / 16) :: hexChar (b.toNat % 16) :: hexStr bs

/-- Text of a `data` command, src/backend-tcp2.c 2094-2098. -/
def dataStr (n : Nat) (d : Dims) (i : Idx) (e : Bytes) : List Char :=
  'd' :: 'a' :: 't' :: 'a' :: ' ' :: (digits e.length ++ ' ' :: (posStr n d i ++ hexStr e))

/-- Characters as bytes. -/
def toBytes (s : List Char) : Bytes := s.map fun c => UInt8.ofNat c.toNat

/-- `send_data`, src/backend-tcp2.c 2088-2110, with `char str[100]`.
`send_cmd` (631-666) adds the line end. -/
def sendText (d : Dims) (out : Bytes) (n : Nat) (i : Idx) (e : Bytes) : Except SFault Bytes :=
  if istrFits d i ∧ (dataStr n d i e).length + 1 ≤ 100 then
    .ok (out ++ (toBytes (dataStr n d i e) ++ [10]))
  else .error .overflow

/-- Loop of `send_range`, src/backend-tcp2.c 2181-2190, with `emit` the call
of `send_data_bin` or `send_data`.  `addr` is the address computation with the
layout's offset function.  Result: also `ecount`. -/
def sendLoop {S : Type} (d : Dims) (b : Box) (addr : Idx → Option Int) (mem : Int → Bytes)
    (emit : S → Nat → Idx → Bytes → Except SFault S) :
    Nat → S → Nat → Idx → Except SFault (S × Nat)
  | 0, _, _, _ => .error .fuel
  | fuel + 1, s, n, i =>
    match addr i with
    | none => .error .assert
    | some a =>
      match emit s n i (mem a) with
      | .error e => .error e
      | .ok s' =>
        if (nextLex d b i).1 then sendLoop d b addr mem emit fuel s' (n + 1) (nextLex d b i).2
        else .ok (s', n + 1)

/-- `send_range` for a peer accepting binary data, src/backend-tcp2.c
2160-2197, with the right to send given for `scount` elements of `selemsize`
bytes; `sz` is `laik_range_size(range)`, `z` the element size.  The waiting
for `scount` to be set is not modelled. -/
def sendRangeBin (m : LMap) (mem : Int → Bytes) (b : Box) (lid : Nat) (scount selemsize sz z : Nat)
    (s : SBuf) : Except SFault SBuf :=
  if scount = sz ∧ selemsize = z then
    match sendLoop m.lay.dims b m.addr mem (sendBin lid) (sz + 1) s 0 b.lo with
    | .error e => .error e
    | .ok (s', n) => if n = sz then binFlush lid s' else .error .assert
  else .error .assert

/-- `send_range` for a peer not accepting binary data. -/
def sendRangeText (m : LMap) (mem : Int → Bytes) (b : Box) (scount selemsize sz z : Nat)
    (out : Bytes) : Except SFault Bytes :=
  if scount = sz ∧ selemsize = z then
    match sendLoop m.lay.dims b m.addr mem (sendText m.lay.dims) (sz + 1) out 0 b.lo with
    | .error e => .error e
    | .ok (o, n) => if n = sz then .ok o else .error .assert
  else .error .assert

/-! ### Receiver -/

/-- What `struct Peer` (src/backend-tcp2.c 237-264) has for a receive:
`rcount`, `roff`, `relemsize`, `rmap`, `rcv_range`, `rcv_idx`, `rro`; and the
memory.  `op` is `none` for `LAIK_RO_None`, else the reduction function for
one element.  `err`: an assert failed. -/
structure Rcv where
  rcount : Nat
  roff : Nat
  esize : Nat
  map : LMap
  range : Box
  idx : Idx
  op : Option (Bytes → Bytes → Bytes)
  mem : Int → Bytes
  err : Bool

/-- `recv_range`, src/backend-tcp2.c 2202-2222, up to the waiting loop. -/
def recvRange (m : LMap) (b : Box) (sz z : Nat) (op : Option (Bytes → Bytes → Bytes))
    (mem : Int → Bytes) : Rcv :=
  { rcount := sz, roff := 0, esize := z, map := m, range := b, idx := b.lo, op := op, mem := mem,
    err := false }

/-- New content of the element: `memcpy` or reduction with the old content,
src/backend-tcp2.c 714-720 and 810-816. -/
def newElem (op : Option (Bytes → Bytes → Bytes)) (old e : Bytes) : Bytes :=
  match op with
  | none => e
  | some f => f old e

/-- Store one element and go to the next index, src/backend-tcp2.c 712-730 and
773-774, 810-821.  Result: also the result of `next_lex`. -/
def storeElem (s : Rcv) (e : Bytes) : Rcv × Bool :=
  match s.map.addr s.idx with
  | none => ({ s with err := true }, false)
  | some a =>
    ({ s with mem := fun c => if c = a then newElem s.op (s.mem a) e else s.mem c
              roff := s.roff + 1
              idx := (nextLex s.map.lay.dims s.range s.idx).2 },
     (nextLex s.map.lay.dims s.range s.idx).1)

/-- Value of a hex digit, with the asserts, src/backend-tcp2.c 802-804. -/
def hexVal (c : Char) : Option Nat :=
  if 48 ≤ c.toNat ∧ c.toNat ≤ 57 then some (c.toNat - 48)
  else if 97 ≤ c.toNat ∧ c.toNat ≤ 102 then some (c.toNat - 87)
  else none

/-- Loop parsing hex bytes, src/backend-tcp2.c 792-806, for the text up to the
terminating 0.  `none`: an assert failed.  Simplification: `v` does not
overflow. -/
def hexLoop (len : Nat) : List Char → Nat → Bytes → Option Bytes
  | [], v, acc => if acc.length < len then some (acc ++ [UInt8.ofNat v]) else none
  | c :: cs, v, acc =>
    if c = ' ' then
      if acc.length < len then
        if acc.length + 1 = len then some (acc ++ [UInt8.ofNat v])
        else hexLoop len cs 0 (acc ++ [UInt8.ofNat v])
      else none
    else
      match hexVal c with
      | none => none
      | some x => hexLoop len cs (16 * v + x) acc

/-- `%20s` of `sscanf`: rest after skipping space and at most 20 other
characters; at least one is needed. -/
def scanWord20 (s : List Char) : Option (List Char) :=
  let s := s.dropWhile isSpace
  let w := (s.takeWhile (fun c => !isSpace c)).take 20
  if w = [] then none else some (s.drop w.length)

/-- Prefix check of `strncmp(msg+i, pstr, s) == 0`: the rest, if equal. -/
def stripPrefix : List Char → List Char → Option (List Char)
  | [], s => some s
  | p :: ps, c :: cs => if p = c then stripPrefix ps cs else none
  | _ :: _, [] => none

/-- Skip of an optional position, src/backend-tcp2.c 779-783. -/
def skipPos (pos s : List Char) : Option (List Char) :=
  if s.head? = some '(' then (stripPrefix pos s).map (·.dropWhile (· == ' ')) else some s

/-- The bytes of a `data` command for the element expected next,
src/backend-tcp2.c 769-807, with `len` as parsed and `s` the rest of the
message.  `none`: an assert failed or `istr` overflowed its buffer. -/
def parseElem (r : Rcv) (len : Int) (s : List Char) : Option Bytes :=
  if (r.esize : Int) = len ∧ istrFits r.map.lay.dims r.idx then
    match skipPos (posStr r.roff r.map.lay.dims r.idx) s with
    | none => none
    | some s =>
      if r.esize < 100 then
        match hexLoop r.esize s 0 [] with
        | none => none
        | some e => if e.length = r.esize then some e else none
      else none
  else none

/-- `got_data`, src/backend-tcp2.c 745-823. -/
def gotData (r : Rcv) (s : List Char) : Rcv :=
  match scanWord20 s with
  | none => r
  | some s1 =>
    match scanInt s1 with
    | none => r
    | some (len, s2) =>
      if r.rcount = 0 ∨ r.rcount = r.roff then r
      else
        match parseElem r len (s2.dropWhile isSpace) with
        | none => { r with err := true }
        | some e =>
          let q := storeElem r e
          if q.2 = decide (q.1.roff < q.1.rcount) then q.1 else { q.1 with err := true }

/-- The receiver for the connection to the peer: of `got_cmd`
(src/backend-tcp2.c 1472-1518) only `data` matters for the receive.  Reading
stops at a 0 byte in a line, which is not modelled. -/
def rcv : Receiver Rcv where
  line r b :=
    let s := b.map fun c => Char.ofNat c.toNat
    (if s.head? = some 'd' then gotData r s else r, true)
  rem r := r.rcount - r.roff
  esize r := r.esize
  elem := storeElem

end Laik.Tcp
