import Verif.Spec.Points
import Verif.Model.Range
/-!
# Model of layouts (`src/layout_lex.c`, `src/layout.c`)

General simplifications: memory is addressed in units of elements (`char*`
addresses that differ by a multiple of `elemsize` from the start of an
allocation), integers are unbounded (no wrap-around of `int64_t`/`uint64_t`),
all ranges belong to one space of dimensionality `d` and are valid.
Log output is left out.  A failed `assert` or undefined behaviour is `none`.
-/

namespace Laik.Lay

/-- `struct _Lex_Entry`, src/layout_lex.c 27-33.  Strides are `uint64_t`. -/
structure LexEntry where
  box : Box
  count : Nat
  s0 : Int
  s1 : Int
  s2 : Int
  deriving DecidableEq, Repr

/-- `struct _Laik_Layout_Lex`, src/layout_lex.c 35-39, with `dims` and `count`
of the header `Laik_Layout` (`map_count` is the length of `e`). -/
structure LexLayout where
  dims : Dims
  count : Int
  e : List LexEntry
  deriving DecidableEq, Repr

/-- Loop body of `laik_new_layout_lex`, src/layout_lex.c 504-526. -/
def newLexEntry (d : Dims) (b : Box) : Option LexEntry :=
  match b.size d with
  | none => none
  | some c =>
    if ¬ b.lo.x < b.hi.x then none
    else
      let s1 := if d.toNat > 1 then b.hi.x - b.lo.x else 0
      if d.toNat > 1 ∧ ¬ b.lo.y < b.hi.y then none
      else
        let s2 := if d.toNat > 2 then s1 * (b.hi.y - b.lo.y) else 0
        if d.toNat > 2 ∧ ¬ b.lo.z < b.hi.z then none
        else some ⟨b, c, 1, s1, s2⟩

/-- The loop of `laik_new_layout_lex`, src/layout_lex.c 503-527. -/
def newLexEntries (d : Dims) : List Box → Option (List LexEntry)
  | [] => some []
  | b :: bs =>
    match newLexEntry d b, newLexEntries d bs with
    | some e, some es => some (e :: es)
    | _, _ => none

/-- `laik_new_layout_lex`, src/layout_lex.c 483-531. -/
def newLayoutLex (d : Dims) (ranges : List Box) : Option LexLayout :=
  match newLexEntries d ranges with
  | none => none
  | some es => some ⟨d, (es.map fun e => (e.count : Int)).sum, es⟩

/-- The test of `section_lex`, src/layout_lex.c 70-77. -/
def LexEntry.contains (d : Dims) (e : LexEntry) (p : Idx) : Bool :=
  if p.x < e.box.lo.x ∨ p.x ≥ e.box.hi.x then false
  else if d.toNat > 1 then
    if p.y < e.box.lo.y ∨ p.y ≥ e.box.hi.y then false
    else if d.toNat > 2 then
      if p.z < e.box.lo.z ∨ p.z ≥ e.box.hi.z then false else true
    else true
  else true

/-- `section_lex`, src/layout_lex.c 61-81; `none` is `return -1`. -/
def sectionLex (l : LexLayout) (p : Idx) : Option Nat :=
  l.e.findIdx? fun e => e.contains l.dims p

/-- `mapno_lex`, src/layout_lex.c 85-89 (for `n ≥ 0`). -/
def mapnoLex (l : LexLayout) (n : Nat) : Option Nat :=
  if n < l.e.length then some n else none

/-- The offset computed in src/layout_lex.c 102-108. -/
def LexEntry.off (d : Dims) (e : LexEntry) (p : Idx) : Int :=
  (p.x - e.box.lo.x) +
    (if d.toNat > 1 then
      (p.y - e.box.lo.y) * e.s1 +
        (if d.toNat > 2 then (p.z - e.box.lo.z) * e.s2 else 0)
    else 0)

/-- `offset_lex`, src/layout_lex.c 94-111. -/
def offsetLex (l : LexLayout) (n : Nat) (p : Idx) : Option Int :=
  match l.e[n]? with
  | none => none
  | some e =>
    let off := e.off l.dims p
    if 0 ≤ off ∧ off < e.count then some off else none

/-- `laik_layout_lex_stride`, src/layout_lex.c 535-543. -/
def lexStride (l : LexLayout) (n : Nat) (k : Nat) : Option Int :=
  match l.e[n]? with
  | none => none
  | some e =>
    if k < l.dims.toNat then some (if k = 0 then e.s0 else if k = 1 then e.s1 else e.s2)
    else none

/-- `reuse_lex`, src/layout_lex.c 140-172: changed new layout and `true`, or
`false`.  Outer `none`: failed assert, or reading beyond the entries of the
old layout. -/
def reuseLex (l : LexLayout) (n : Nat) (old : LexLayout) (nold : Nat) :
    Option (LexLayout × Bool) :=
  match l.e[n]?, old.e[nold]? with
  | some eNew, some eOld =>
    if eNew.box.within l.dims eOld.box then
      some ({ l with
        count := l.count + (eOld.count - eNew.count)
        e := l.e.set n ⟨eOld.box, eOld.count, eOld.s0, eOld.s1, eOld.s2⟩ }, true)
    else some (l, false)
  | _, _ => none

/-- A mapping (`struct _Laik_Mapping`, include/laik/data-internal.h) as far as
layouts see it: layout and section, address of the allocation (`start`) and of
the first required index (`base`), required and allocated range. -/
structure LMap where
  lay : LexLayout
  sect : Nat
  start : Int
  base : Int
  required : Box
  allocated : Box
  deriving DecidableEq, Repr

/-- Address of an index in a mapping, `start + offset(section, idx)`, as
computed at all places in layout.c / layout_lex.c / data.c 587-590. -/
def LMap.addr (m : LMap) (p : Idx) : Option Int :=
  (offsetLex m.lay m.sect p).map (m.start + ·)

/-! ### Generic traversal, `src/layout.c` -/

/-- `next_lex`, src/layout.c 37-52: return value and new `*idx`. -/
def nextLex (d : Dims) (b : Box) (i : Idx) : Bool × Idx :=
  let i := { i with x := i.x + 1 }
  if i.x < b.hi.x then (true, i)
  else if d.toNat = 1 then (false, i)
  else
    let i := { i with y := i.y + 1, x := b.lo.x }
    if i.y < b.hi.y then (true, i)
    else if d.toNat = 2 then (false, i)
    else
      let i := { i with z := i.z + 1, y := b.lo.y }
      if i.z < b.hi.z then (true, i) else (false, i)

/-- Loop of `laik_layout_pack_gen` (src/layout.c 127-147) and of
`laik_layout_unpack_gen` (188-208), which only differ in the `memcpy`:
`body s` is `none` if the loop condition `size >= elemsize` fails in state
`s`, else it gives the state after copying an element at an address.  `addr`
is the address computation from the layout's offset function.  `fuel` bounds
the number of rounds (`size / elemsize + 1` suffices); running out of it is
`none`. -/
def genLoop {σ : Type} (d : Dims) (b : Box) (addr : Idx → Option Int)
    (body : σ → Option (Int → σ)) : Nat → σ → Idx → Option (σ × Idx)
  | 0, _, _ => none
  | fuel + 1, s, i =>
    match body s with
    | none => some (s, i)
    | some f =>
      match addr i with
      | none => none
      | some a =>
        match nextLex d b i with
        | (false, _) => some (f a, b.hi)
        | (true, i') => genLoop d b addr body fuel (f a) i'

/-- State of a packing loop: elements written so far and number of further
elements fitting into the buffer (`size / elemsize`). -/
structure PackSt (V : Type) where
  out : List V
  cap : Nat
  deriving DecidableEq, Repr

/-- State of an unpacking loop: memory and elements left in the buffer. -/
structure UnpSt (V : Type) where
  mem : Int → V
  buf : List V

/-- Element copy of the pack functions (layout.c 127, 138-141, layout_lex.c
307-325): `none` if `size < elemsize`. -/
def packBody {V : Type} (mem : Int → V) (s : PackSt V) : Option (Int → PackSt V) :=
  if s.cap = 0 then none else some fun a => ⟨s.out ++ [mem a], s.cap - 1⟩

/-- Element copy of the unpack functions (layout.c 188, 199-202, layout_lex.c
430-447): `none` if `size < elemsize`. -/
def unpBody {V : Type} (s : UnpSt V) : Option (Int → UnpSt V) :=
  match s.buf with
  | [] => none
  | v :: vs => some fun a => ⟨fun c => if c = a then v else s.mem c, vs⟩

/-- `laik_layout_pack_gen`, src/layout.c 100-157.  `cap` is the number of
elements fitting into the buffer, `size / elemsize`.  Result: the elements
written to the buffer (their number is the return value) and the new `*idx`. -/
def packGen {V : Type} (m : LMap) (mem : Int → V) (b : Box) (i : Idx) (cap : Nat) :
    Option (List V × Idx) :=
  let d := m.lay.dims
  if indexIsEqual d i b.hi then some ([], i)
  else if ¬ b.within d m.required then none
  else
    (genLoop d b m.addr (packBody mem) (cap + 1) ⟨[], cap⟩ i).map
      fun r => (r.1.out, r.2)

/-- `laik_layout_unpack_gen`, src/layout.c 162-218.  `buf` are the elements in
the buffer (`assert(size > 0)` becomes: there is at least one element).
Result: memory, number of elements unpacked, new `*idx`. -/
def unpackGen {V : Type} (m : LMap) (mem : Int → V) (b : Box) (i : Idx) (buf : List V) :
    Option ((Int → V) × Nat × Idx) :=
  let d := m.lay.dims
  if buf.isEmpty then none
  else if indexIsEqual d i b.hi then none
  else if ¬ b.within d m.required then none
  else
    (genLoop d b m.addr unpBody (buf.length + 1) ⟨mem, buf⟩ i).map
      fun r => (r.1.mem, buf.length - r.1.buf.length, r.2)

/-- `memcpy` of `n` elements; overlapping source and destination is undefined
behaviour (`none`). -/
def memcpy {V : Type} (mem : Int → V) (dst src : Int) (n : Nat) : Option (Int → V) :=
  if 0 < n ∧ dst < src + n ∧ src < dst + n then none
  else some fun a => if dst ≤ a ∧ a < dst + n then mem (src + (a - dst)) else mem a

/-- Loop of `laik_layout_copy_gen`, src/layout.c 78-93, with the counter.
`fuel` bounds the number of rounds. -/
def copyGenLoop {V : Type} (d : Dims) (b : Box) (fromAddr toAddr : Idx → Option Int) :
    Nat → (Int → V) → Idx → Nat → Option ((Int → V) × Nat)
  | 0, _, _, _ => none
  | fuel + 1, mem, i, count =>
    match fromAddr i, toAddr i with
    | some a, some c =>
      match memcpy mem c a 1 with
      | none => none
      | some mem' =>
        match nextLex d b i with
        | (false, _) => some (mem', count + 1)
        | (true, i') => copyGenLoop d b fromAddr toAddr fuel mem' i' (count + 1)
    | _, _ => none

/-- `laik_layout_copy_gen`, src/layout.c 55-95. -/
def copyGen {V : Type} (b : Box) (src dst : LMap) (mem : Int → V) : Option (Int → V) :=
  let d := src.lay.dims
  match b.size d with
  | none => none
  | some n =>
    match copyGenLoop d b src.addr dst.addr (n + 1) mem b.lo 0 with
    | none => none
    | some (mem', count) => if count = n then some mem' else none

/-! ### Specific functions of the lexicographic layout, `src/layout_lex.c` -/

/-- Inner loop of `pack_lex` (src/layout_lex.c 306-327) and `unpack_lex`
(429-449), which are the same up to the `memcpy` (`body`).  First argument:
number of rounds left, `to0 - i0`.  Result: state, `i0`, `idxPtr`, `stop`. -/
def lexX {σ : Type} (body : σ → Option (Int → σ)) :
    Nat → σ → Int → Int → σ × Int × Int × Bool
  | 0, s, i0, ptr => (s, i0, ptr, false)
  | n + 1, s, i0, ptr =>
    match body s with
    | none => (s, i0, ptr, true)
    | some f => lexX body n (f ptr) (i0 + 1) (ptr + 1)

/-- Middle loop, src/layout_lex.c 305-331 and 428-453.  First number:
`to1 - i1`.  Result: state, `i0`, `i1`, `idxPtr`, `stop`. -/
def lexY {σ : Type} (body : σ → Option (Int → σ)) (from0 to0 skip0 : Int) :
    Nat → σ → Int → Int → Int → σ × Int × Int × Int × Bool
  | 0, s, i0, i1, ptr => (s, i0, i1, ptr, false)
  | n + 1, s, i0, i1, ptr =>
    match lexX body (to0 - i0).toNat s i0 ptr with
    | (s', i0', ptr', true) => (s', i0', i1, ptr', true)
    | (s', _, ptr', false) =>
      lexY body from0 to0 skip0 n s' from0 (i1 + 1) (ptr' + skip0)

/-- Outer loop, src/layout_lex.c 304-335 and 427-457.  First number:
`to2 - i2`.  Result: state, `i0`, `i1`, `i2`, `stop`. -/
def lexZ {σ : Type} (body : σ → Option (Int → σ)) (from0 to0 skip0 from1 to1 skip1 : Int) :
    Nat → σ → Int → Int → Int → Int → σ × Int × Int × Int × Bool
  | 0, s, i0, i1, i2, _ => (s, i0, i1, i2, false)
  | n + 1, s, i0, i1, i2, ptr =>
    match lexY body from0 to0 skip0 (to1 - i1).toNat s i0 i1 ptr with
    | (s', i0', i1', _, true) => (s', i0', i1', i2, true)
    | (s', i0', _, ptr', false) =>
      lexZ body from0 to0 skip0 from1 to1 skip1 n s' i0' from1 (i2 + 1) (ptr' + skip1)

/-- The part common to `pack_lex` (src/layout_lex.c 250-285, 303-340, 352-355)
and `unpack_lex` (372-407, 426-462, 474-477): the asserts, loop bounds, skips
and the loops.  As in the code, the address of the start index comes from
section `m.sect` (`offset_lex`, 262/384), but the strides from entry 0
(`layoutEntry`, 242/365). -/
def lexTraverse {σ : Type} (m : LMap) (body : σ → Option (Int → σ)) (s : σ) (b : Box) (i : Idx) :
    Option (σ × Idx) :=
  let d := m.lay.dims
  match m.lay.e[0]? with
  | none => none
  | some e0 =>
    if ¬ (e0.s0 = 1 ∧ (d.toNat > 1 → e0.s0 ≤ e0.s1) ∧ (d.toNat > 2 → e0.s1 ≤ e0.s2)) then none
    else if ¬ b.within d m.required then none
    else
      match offsetLex m.lay m.sect i with
      | none => none
      | some off =>
        let ptr := m.start + off
        let from0 := b.lo.x
        let to0 := b.hi.x
        let from1 := if d.toNat < 2 then 0 else b.lo.y
        let to1 := if d.toNat < 2 then 1 else b.hi.y
        let to2 := if d.toNat < 3 then 1 else b.hi.z
        let i1 := if d.toNat < 2 then 0 else i.y
        let i2 := if d.toNat < 3 then 0 else i.z
        let skip0 := e0.s1 - (to0 - from0)
        let skip1 := e0.s2 - e0.s1 * (to1 - from1)
        match lexZ body from0 to0 skip0 from1 to1 skip1 (to2 - i2).toNat s i.x i1 i2 ptr with
        | (s', i0', i1', i2', true) => some (s', ⟨i0', i1', i2'⟩)
        | (s', _, _, i2', false) => some (s', ⟨to0, to1, i2'⟩)

/-- `pack_lex`, src/layout_lex.c 237-357. -/
def packLex {V : Type} (m : LMap) (mem : Int → V) (b : Box) (i : Idx) (cap : Nat) :
    Option (List V × Idx) :=
  if indexIsEqual m.lay.dims i b.hi then some ([], i)
  else
    (lexTraverse m (packBody mem) ⟨[], cap⟩ b i).map fun r => (r.1.out, r.2)

/-- `unpack_lex`, src/layout_lex.c 360-479. -/
def unpackLex {V : Type} (m : LMap) (mem : Int → V) (b : Box) (i : Idx) (buf : List V) :
    Option ((Int → V) × Nat × Idx) :=
  if buf.isEmpty then none
  else if indexIsEqual m.lay.dims i b.hi then none
  else
    (lexTraverse m unpBody ⟨mem, buf⟩ b i).map
      fun r => (r.1.mem, buf.length - r.1.buf.length, r.2)

/-- Row loop of `copy_lex`, src/layout_lex.c 224-228. -/
def copyRows {V : Type} (cx : Nat) (fs ts : Int) :
    Nat → (Int → V) → Int → Int → Option (Int → V)
  | 0, mem, _, _ => some mem
  | n + 1, mem, fp, tp =>
    match memcpy mem tp fp cx with
    | none => none
    | some mem' => copyRows cx fs ts n mem' (fp + fs) (tp + ts)

/-- Plane loop of `copy_lex`, src/layout_lex.c 221-231. -/
def copyPlanes {V : Type} (cx cy : Nat) (fs1 ts1 fs2 ts2 : Int) :
    Nat → (Int → V) → Int → Int → Option (Int → V)
  | 0, mem, _, _ => some mem
  | n + 1, mem, fp, tp =>
    match copyRows cx fs1 ts1 cy mem fp tp with
    | none => none
    | some mem' => copyPlanes cx cy fs1 ts1 fs2 ts2 n mem' (fp + fs2) (tp + ts2)

/-- `copy_lex`, src/layout_lex.c 176-232.  The strides are those of entry 0 of
both layouts (183-184), the start offsets those of the sections. -/
def copyLex {V : Type} (b : Box) (src dst : LMap) (mem : Int → V) : Option (Int → V) :=
  let d := src.lay.dims
  match src.lay.e[0]?, dst.lay.e[0]? with
  | some f0, some t0 =>
    if d ≠ dst.lay.dims then none
    else
      let c := subIndex b.hi b.lo
      let cx := c.x
      let cy := if d.toNat < 2 then 1 else c.y
      let cz := if d.toNat < 3 then 1 else c.z
      -- `ccount` is unsigned: the assert only excludes 0
      if cx * cy * cz = 0 then none
      else
        match offsetLex src.lay src.sect b.lo, offsetLex dst.lay dst.sect b.lo with
        | some fo, some to_ =>
          -- `count.i[0] * elemsize` converted to `size_t`: a negative width is
          -- a huge size
          if cx < 0 ∧ 0 < cy ∧ 0 < cz then none
          else
            copyPlanes cx.toNat cy.toNat f0.s1 t0.s1 f0.s2 t0.s2 cz.toNat mem
              (src.start + fo) (dst.start + to_)
        | _, _ => none
  | _, _ => none

/-- Which functions a layout uses for pack/unpack/copy: those of the
lexicographic layout, or the generic ones (environment variable
`LAIK_LAYOUT_GENERIC`), `laik_init_layout`, src/layout.c 250-260. -/
inductive Impl where
  | lex | gen
  deriving DecidableEq, Repr

/-- `layout->pack`. -/
def packI {V : Type} : Impl → LMap → (Int → V) → Box → Idx → Nat → Option (List V × Idx)
  | .lex => packLex
  | .gen => packGen

/-- `layout->unpack`. -/
def unpackI {V : Type} :
    Impl → LMap → (Int → V) → Box → Idx → List V → Option ((Int → V) × Nat × Idx)
  | .lex => unpackLex
  | .gen => unpackGen

/-- `laik_data_copy`, src/data.c 534-546. -/
def dataCopy {V : Type} (iSrc iDst : Impl) (b : Box) (src dst : LMap) (mem : Int → V) :
    Option (Int → V) :=
  if iSrc = iDst then
    match iSrc with
    | .lex => copyLex b src dst mem
    | .gen => copyGen b src dst mem
  else copyGen b src dst mem

end Laik.Lay
