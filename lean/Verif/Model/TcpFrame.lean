import Verif.Spec.Stream
/-!
# Model of the receive buffer of the TCP backend (`src/backend-tcp2.c`)
-/

namespace Laik.Tcp

/-- What may go wrong: failed assert, buffer full (`laik_panic`), access to
the freed receive buffer, endless loop. -/
inductive Fault where
  | assert
  | panic
  | freed
  | hang
  deriving DecidableEq, Repr

/-- `RBUF_LEN`, src/backend-tcp2.c 185. -/
def rbufLen : Nat := 8 * 1024

variable {σ : Type}

/-- Loop of `got_binary_data`, src/backend-tcp2.c 710-731, with `z` the element
size.  Result: bytes not consumed.  Simplifications: position of the element
and the store are in `R.elem`, which returns `inTraversal`. -/
def gotElems (R : Receiver σ) (z : Nat) (s : σ) (inTrav : Bool) (b : Bytes) :
    Except Fault (σ × Bytes) :=
  if hz : z = 0 then .error .hang
  else if hb : b.length < z then .ok (s, b)
  else if inTrav = false then .error .assert
  else gotElems R z (R.elem s (b.take z)).1 (R.elem s (b.take z)).2 (b.drop z)
termination_by b.length
decreasing_by simp; omega

/-- `got_binary_data`, src/backend-tcp2.c 695-741.  The assert in line 733
(`roff <= rcount`) is not checked here: `rem` is `rcount - roff`. -/
def gotBinary (R : Receiver σ) (s : σ) (b : Bytes) : Except Fault (σ × Bytes) :=
  if R.rem s = 0 then .ok (s, []) else gotElems R (R.esize s) s true b

/-- State of a connection: `rbuf` up to `rbuf_used`, `outstanding_bin`
(src/backend-tcp2.c 273-278), and whether `got_quit` closed it. -/
structure Conn (σ : Type) where
  st : σ
  bin : Nat := 0
  buf : Bytes := []
  closed : Bool := false
  deriving DecidableEq

/-- `got_cmd` with the test for length 0, src/backend-tcp2.c 1472-1477. -/
def gotCmd (R : Receiver σ) (s : σ) (b : Bytes) : σ × Bool :=
  if b = [] then (s, true) else R.line s b

theorem gotElems_length (R : Receiver σ) (z : Nat) : ∀ (b : Bytes) (s : σ) (t : Bool) (r : σ × Bytes),
    gotElems R z s t b = .ok r → r.2.length ≤ b.length := by
  intro b
  induction hn : b.length using Nat.strongRecOn generalizing b with
  | _ n ih =>
    intro s t r h
    unfold gotElems at h
    split at h
    · cases h
    · split at h
      · injection h with h; rw [← h, ← hn]; exact Nat.le_refl _
      · split at h
        · cases h
        · have := ih _ (by rw [List.length_drop]; omega) _ rfl _ _ _ h
          rw [List.length_drop] at this
          omega

/-- Loop of `process_rbuf`, src/backend-tcp2.c 1534-1587.  `cur` are the bytes
from `pos1` up to `pos2`, with CR already changed, `rest` those from `pos2` up
to `used`.  The test for `B` at `pos1` is only done with `pos1 = pos2`: the
byte does not change until `pos1` moves.  Binary data starts with `cur = []`
(`pos2 = pos1`).  `got_quit` (1064-1073) frees the buffer, so any access
after this is a fault. -/
def scan (R : Receiver σ) (s : σ) (bin : Nat) (cur rest : Bytes) : Except Fault (Conn σ) :=
  match rest with
  | [] => .ok { st := s, bin := bin, buf := cur }
  | c :: rest' =>
    if 0 < bin then
      if (c :: rest').length < bin then
        match h : gotBinary R s (c :: rest') with
        | .error e => .error e
        | .ok (s', left) =>
          if hl : left.length = (c :: rest').length then .ok { st := s, bin := bin, buf := c :: rest' }
          else scan R s' (bin - ((c :: rest').length - left.length)) [] left
      else
        match h : gotBinary R s ((c :: rest').take bin) with
        | .error e => .error e
        | .ok (s', left) =>
          if hl : left.length = ((c :: rest').take bin).length then .error .assert
          else scan R s' left.length [] (left ++ (c :: rest').drop bin)
    else if cur = [] ∧ c = 66 then
      if rest'.length < 2 then .ok { st := s, bin := 0, buf := c :: rest' }
      else scan R s ((rest'.getD 0 0).toNat + (rest'.getD 1 0).toNat * 256) [] (rest'.drop 2)
    else if c = 4 then .error .freed
    else if c = 13 then scan R s 0 (cur ++ [32]) rest'
    else if c = 10 then
      if (gotCmd R s cur).2 then scan R (gotCmd R s cur).1 0 [] rest'
      else if rest' = [] then .ok { st := (gotCmd R s cur).1, closed := true }
      else .error .freed
    else scan R s 0 (cur ++ [c]) rest'
termination_by rest.length
decreasing_by
  all_goals simp_wf
  · have : left.length ≤ (c :: rest').length := by
      unfold gotBinary at h
      split at h
      · injection h with h; injection h with h1 h2; rw [← h2]; simp
      · exact gotElems_length R _ _ _ _ _ h
    simp at this hl
    omega
  · have : left.length ≤ ((c :: rest').take bin).length := by
      unfold gotBinary at h
      split at h
      · injection h with h; injection h with h1 h2; rw [← h2]; simp
      · exact gotElems_length R _ _ _ _ _ h
    rw [List.length_take] at this hl
    simp at this hl
    omega
  all_goals omega

/-- `got_bytes` for a read returning data, src/backend-tcp2.c 1596-1609 and
1654-1655: `read` returns some bytes, at least one, at most as fit into the
buffer. `k` selects how many. Result: also the part of the stream not read. -/
def gotBytes (R : Receiver σ) (c : Conn σ) (k : Nat) (stream : Bytes) :
    Except Fault (Conn σ × Bytes) :=
  if c.buf.length = rbufLen then .error .panic
  else
    let n := min (k + 1) (rbufLen - c.buf.length)
    match scan R c.st c.bin [] (c.buf ++ stream.take n) with
    | .error e => .error e
    | .ok c' => .ok (c', stream.drop n)

/-- Calls of `got_bytes` by the event loop, as long as something arrived. -/
def gotAll (R : Receiver σ) (c : Conn σ) : List Nat → Bytes → Except Fault (Conn σ × Bytes)
  | [], stream => .ok (c, stream)
  | k :: ks, stream =>
    if stream = [] ∨ c.closed then .ok (c, stream)
    else match gotBytes R c k stream with
      | .error e => .error e
      | .ok (c', stream') => gotAll R c' ks stream'

/-- `got_bytes` when the other side closed the connection, src/backend-tcp2.c
1616-1640: a line end is added to what is left in the buffer.  If this closed
the connection (`quit`), the assert in `rm_rfd` (line 471) fails. -/
def gotEof (R : Receiver σ) (c : Conn σ) : Except Fault (Conn σ) :=
  if c.buf.length = rbufLen then .error .panic
  else if 0 < c.buf.length then
    match scan R c.st c.bin [] (c.buf ++ [10]) with
    | .error e => .error e
    | .ok c' => if c'.closed then .error .assert else .ok { c' with closed := true }
  else .ok { c with closed := true }

end Laik.Tcp
