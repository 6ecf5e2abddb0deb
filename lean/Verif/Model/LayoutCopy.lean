import Verif.Model.PackSend
/-!
# Lemmas about the copy functions
-/

namespace Laik.Lay

theorem storeAll_span {V : Type} (n : Nat) : ∀ (mem : Int → V) (g : Int → V) (t f a : Int),
    storeAll mem (spanN n t) ((spanN n f).map g) a =
      if t ≤ a ∧ a < t + n then g (f + (a - t)) else mem a := by
  induction n with
  | zero =>
    intro mem g t f a
    simp only [spanN, storeAll]
    rw [if_neg (by omega)]
  | succ n ih =>
    intro mem g t f a
    simp only [spanN, List.map_cons, storeAll]
    rw [ih]
    by_cases h1 : t + 1 ≤ a ∧ a < t + 1 + n
    · rw [if_pos h1, if_pos (by omega)]; congr 1; omega
    · rw [if_neg h1]
      by_cases h2 : a = t
      · rw [if_pos h2, if_pos (by omega)]; congr 1; omega
      · rw [if_neg h2, if_neg (by omega)]

theorem memcpy_storeAll {V : Type} (mem : Int → V) (dst src : Int) (n : Nat)
    (h : ∀ a c, src ≤ a → a < src + n → dst ≤ c → c < dst + n → a ≠ c) :
    memcpy mem dst src n = some (storeAll mem (spanN n dst) ((spanN n src).map mem)) := by
  unfold memcpy
  rw [if_neg ?_]
  · congr 1; funext a; rw [storeAll_span]
  · rintro ⟨h0, h1, h2⟩
    rcases Int.le_total src dst with hle | hle
    · exact h dst dst hle (by omega) (by omega) (by omega) rfl
    · exact h src src (by omega) (by omega) hle (by omega) rfl

theorem row_map {x0 x1 y z : Int} (ad : Idx → Int) (hx : ∀ x, ad ⟨x + 1, y, z⟩ = ad ⟨x, y, z⟩ + 1) :
    (rowL x1 x0 y z).map ad = spanN (x1 - x0).toNat (ad ⟨x0, y, z⟩) := by
  unfold rowL span
  generalize (x1 - x0).toNat = n
  induction n generalizing x0 with
  | zero => rfl
  | succ n ih =>
    simp only [spanN, List.map_cons]
    rw [ih, hx]

/-- `cur` still has the original content in all source cells. -/
def Keeps {V : Type} (mem cur : Int → V) (P : Idx → Prop) (af : Idx → Int) : Prop :=
  ∀ p, P p → cur (af p) = mem (af p)

theorem keeps_storeAll {V : Type} {mem cur : Int → V} {P : Idx → Prop} {af at_ : Idx → Int}
    (h : Keeps mem cur P af) (hdis : ∀ p q, P p → P q → af p ≠ at_ q) (L : List Idx)
    (hL : ∀ p ∈ L, P p) (val : Idx → V) :
    Keeps mem (storeAll cur (L.map at_) (L.map val)) P af := by
  intro p hp
  rw [storeAll_other L at_ val cur _ (fun q hq he => hdis p q hp (hL q hq) he.symm)]
  exact h p hp

theorem row_copy {V : Type} {mem cur : Int → V} {P : Idx → Prop} {af at_ : Idx → Int}
    {x0 x1 y z : Int} (hk : Keeps mem cur P af) (hdis : ∀ p q, P p → P q → af p ≠ at_ q)
    (hP : ∀ x, x0 ≤ x → x < x1 → P ⟨x, y, z⟩)
    (hfx : ∀ x y z, af ⟨x + 1, y, z⟩ = af ⟨x, y, z⟩ + 1)
    (htx : ∀ x y z, at_ ⟨x + 1, y, z⟩ = at_ ⟨x, y, z⟩ + 1) :
    memcpy cur (at_ ⟨x0, y, z⟩) (af ⟨x0, y, z⟩) (x1 - x0).toNat =
      some (storeAll cur ((rowL x1 x0 y z).map at_) ((rowL x1 x0 y z).map fun p => mem (af p))) := by
  have hval : (rowL x1 x0 y z).map (fun p => mem (af p)) =
      (spanN (x1 - x0).toNat (af ⟨x0, y, z⟩)).map cur := by
    rw [← row_map af (fun x => hfx x y z), List.map_map]
    apply List.map_congr_left
    intro p hp
    simp only [rowL, List.mem_map, mem_span] at hp
    obtain ⟨x, hx, rfl⟩ := hp
    exact (hk _ (hP x hx.1 hx.2)).symm
  rw [hval, row_map at_ (fun x => htx x y z)]
  apply memcpy_storeAll
  intro a c h1 h2 h3 h4 he
  have m1 : a ∈ (rowL x1 x0 y z).map af := by
    rw [row_map af (fun x => hfx x y z), mem_spanN]; omega
  have m2 : c ∈ (rowL x1 x0 y z).map at_ := by
    rw [row_map at_ (fun x => htx x y z), mem_spanN]; omega
  simp only [rowL, List.mem_map, mem_span] at m1 m2
  obtain ⟨_, ⟨x, hx, rfl⟩, rfl⟩ := m1
  obtain ⟨_, ⟨x', hx', rfl⟩, rfl⟩ := m2
  exact hdis _ _ (hP x hx.1 hx.2) (hP x' hx'.1 hx'.2) he

theorem copyRows_spec {V : Type} {mem : Int → V} {P : Idx → Prop} {af at_ : Idx → Int}
    {x0 x1 y1 z fs ts : Int} (hdis : ∀ p q, P p → P q → af p ≠ at_ q)
    (hfx : ∀ x y z, af ⟨x + 1, y, z⟩ = af ⟨x, y, z⟩ + 1)
    (htx : ∀ x y z, at_ ⟨x + 1, y, z⟩ = at_ ⟨x, y, z⟩ + 1)
    (hfy : ∀ x y z, af ⟨x, y + 1, z⟩ = af ⟨x, y, z⟩ + fs)
    (hty : ∀ x y z, at_ ⟨x, y + 1, z⟩ = at_ ⟨x, y, z⟩ + ts) :
    ∀ (n : Nat) (cur : Int → V) (y : Int), (y1 - y).toNat = n → Keeps mem cur P af →
      (∀ x y', x0 ≤ x → x < x1 → y ≤ y' → y' < y1 → P ⟨x, y', z⟩) →
      copyRows (x1 - x0).toNat fs ts n cur (af ⟨x0, y, z⟩) (at_ ⟨x0, y, z⟩) =
        some (storeAll cur ((rowsL x0 x1 y1 y z).map at_)
          ((rowsL x0 x1 y1 y z).map fun p => mem (af p))) := by
  intro n
  induction n with
  | zero =>
    intro cur y hn _ _
    rw [rowsL_nil (by omega)]; simp [copyRows, storeAll]
  | succ n ih =>
    intro cur y hn hk hP
    have hrow := row_copy (y := y) (z := z) (x0 := x0) (x1 := x1) hk hdis
      (fun x h1 h2 => hP x y h1 h2 (by omega) (by omega)) hfx htx
    simp only [copyRows, hrow]
    rw [← hfy, ← hty, ih _ (y + 1) (by omega) (keeps_storeAll hk hdis _ (by
        intro p hp
        simp only [rowL, List.mem_map, mem_span] at hp
        obtain ⟨x, hx, rfl⟩ := hp
        exact hP x y hx.1 hx.2 (by omega) (by omega)) _)
      (fun x y' h1 h2 h3 h4 => hP x y' h1 h2 (by omega) h4)]
    rw [storeAll_append _ _ _ _ _ (by simp), ← List.map_append, ← List.map_append,
      rowsL_cons (x0 := x0) (y := y) (by omega)]
    rfl

theorem copyPlanes_spec {V : Type} {mem : Int → V} {P : Idx → Prop} {af at_ : Idx → Int}
    {x0 x1 y0 y1 z1 fs1 ts1 fs2 ts2 : Int} (hdis : ∀ p q, P p → P q → af p ≠ at_ q)
    (hfx : ∀ x y z, af ⟨x + 1, y, z⟩ = af ⟨x, y, z⟩ + 1)
    (htx : ∀ x y z, at_ ⟨x + 1, y, z⟩ = at_ ⟨x, y, z⟩ + 1)
    (hfy : ∀ x y z, af ⟨x, y + 1, z⟩ = af ⟨x, y, z⟩ + fs1)
    (hty : ∀ x y z, at_ ⟨x, y + 1, z⟩ = at_ ⟨x, y, z⟩ + ts1)
    (hfz : ∀ x y z, af ⟨x, y, z + 1⟩ = af ⟨x, y, z⟩ + fs2)
    (htz : ∀ x y z, at_ ⟨x, y, z + 1⟩ = at_ ⟨x, y, z⟩ + ts2) :
    ∀ (n : Nat) (cur : Int → V) (z : Int), (z1 - z).toNat = n → Keeps mem cur P af →
      (∀ x y z', x0 ≤ x → x < x1 → y0 ≤ y → y < y1 → z ≤ z' → z' < z1 → P ⟨x, y, z'⟩) →
      copyPlanes (x1 - x0).toNat (y1 - y0).toNat fs1 ts1 fs2 ts2 n cur (af ⟨x0, y0, z⟩)
          (at_ ⟨x0, y0, z⟩) =
        some (storeAll cur ((planesL x0 x1 y0 y1 z1 z).map at_)
          ((planesL x0 x1 y0 y1 z1 z).map fun p => mem (af p))) := by
  intro n
  induction n with
  | zero =>
    intro cur z hn _ _
    rw [planesL_nil (by omega)]; simp [copyPlanes, storeAll]
  | succ n ih =>
    intro cur z hn hk hP
    have hrows := copyRows_spec (x0 := x0) (x1 := x1) (y1 := y1) (z := z) hdis hfx htx hfy hty
      (y1 - y0).toNat cur y0 rfl hk
      (fun x y' h1 h2 h3 h4 => hP x y' z h1 h2 h3 h4 (by omega) (by omega))
    simp only [copyPlanes, hrows]
    rw [← hfz, ← htz, ih _ (z + 1) (by omega) (keeps_storeAll hk hdis _ (by
        intro p hp
        simp only [rowsL, rowL, List.mem_flatMap, List.mem_map, mem_span] at hp
        obtain ⟨y, hy, x, hx, rfl⟩ := hp
        exact hP x y z hx.1 hx.2 hy.1 hy.2 (by omega) (by omega)) _)
      (fun x y z' h1 h2 h3 h4 h5 h6 => hP x y z' h1 h2 h3 h4 (by omega) h6)]
    rw [storeAll_append _ _ _ _ _ (by simp), ← List.map_append, ← List.map_append]
    have e : planesL x0 x1 y0 y1 z1 z = rowsL x0 x1 y1 y0 z ++ planesL x0 x1 y0 y1 z1 (z + 1) := by
      unfold planesL; rw [span_cons (by omega), List.flatMap_cons]
    rw [e]

theorem copyGenLoop_spec {V : Type} {d : Dims} {b : Box} {mem : Int → V}
    {fa ta : Idx → Option Int} {af at_ : Idx → Int}
    (hfa : ∀ p, Mem d b p → fa p = some (af (canon d p)))
    (hta : ∀ p, Mem d b p → ta p = some (at_ (canon d p)))
    (hdis : ∀ p q, Mem d b p → Mem d b q → af p ≠ at_ q) :
    ∀ (fuel : Nat) (cur : Int → V) (i : Idx) (count : Nat), Mem d b i →
      (remPts d b (canon d i)).length < fuel → Keeps mem cur (Mem d b) af →
      copyGenLoop d b fa ta fuel cur i count =
        some (storeAll cur ((remPts d b (canon d i)).map at_)
          ((remPts d b (canon d i)).map fun p => mem (af p)),
          count + (remPts d b (canon d i)).length) := by
  intro fuel
  induction fuel with
  | zero => intro cur i count _ h; omega
  | succ fuel ih =>
    intro cur i count hi hf hk
    obtain ⟨hn1, hn2⟩ := nextLex_spec hi
    have hci := (mem_canon d b i).2 hi
    unfold copyGenLoop
    rw [hfa i hi, hta i hi]
    simp only
    have hmc := memcpy_storeAll cur (at_ (canon d i)) (af (canon d i)) 1 (by
      intro a c h1 h2 h3 h4 he
      have e1 : a = af (canon d i) := by omega
      have e2 : c = at_ (canon d i) := by omega
      exact hdis _ _ hci hci (by rw [← e1, ← e2, he]))
    have hmc' : memcpy cur (at_ (canon d i)) (af (canon d i)) 1 =
        some (storeAll cur ([canon d i].map at_) ([canon d i].map fun p => mem (af p))) := by
      rw [hmc]; simp [spanN, hk _ hci]
    rw [hmc']
    simp only
    cases hnx : nextLex d b i with
    | mk ok i' =>
      rw [hnx] at hn1 hn2
      cases ok with
      | false =>
        rw [hn2 rfl]; simp
      | true =>
        obtain ⟨hm', hr⟩ := hn1 rfl
        rw [hr] at hf ⊢
        simp only
        rw [ih _ i' (count + 1) hm' (by simpa using hf)
          (keeps_storeAll hk hdis [canon d i] (by
            intro p hp; simp at hp; subst hp; exact hci) (fun p => mem (af p)))]
        rw [storeAll_append _ _ _ _ _ (by simp), ← List.map_append, ← List.map_append]
        simp only [List.singleton_append, List.length_cons]
        congr 2
        omega

theorem length_boxPts (d : Dims) (b : Box) (h : b.isEmpty d = false) :
    b.size d = some (boxPts d b).length := by
  have h1 : (boxPts d b).length = (b.hi.x - b.lo.x).toNat * (yhi d b - ylo d b).toNat *
      (zhi d b - zlo d b).toNat := by
    unfold boxPts
    simp only [List.length_flatMap, List.length_map, span, length_spanN]
    simp only [List.map_const', List.sum_replicate_nat, length_spanN]
    rw [Nat.mul_comm, Nat.mul_comm (yhi d b - ylo d b).toNat]
  rw [h1]
  unfold Box.size
  cases d <;> simp [Box.isEmpty, ylo, yhi, zlo, zhi] at h ⊢ <;> omega

/-- Address as affine function of the three coordinates. -/
def LMap.ad3 (m : LMap) (e : LexEntry) (p : Idx) : Int := m.start + e.off3 m.lay.dims p.x p.y p.z

theorem ad3_cell {m : LMap} {e : LexEntry} (hg : m.lay.GoodL) (he : m.lay.e[m.sect]? = some e)
    {p : Idx} (hp : Mem m.lay.dims e.box p) (hc : canon m.lay.dims p = p) :
    m.ad3 e p = m.cell p := by
  rw [cell_eq hg he hp, off_eq_off3 (good_of_getElem? hg he), hc]; rfl

theorem copyGen_spec {V : Type} {src dst : LMap} (hs : src.WF) (ht : dst.WF)
    (hd : dst.lay.dims = src.lay.dims) {b : Box} (hne : ∃ p, Mem src.lay.dims b p)
    (hbs : SubsetOf src.lay.dims b src.required) (hbt : SubsetOf src.lay.dims b dst.required)
    (hdis : ∀ p q, Mem src.lay.dims b p → Mem src.lay.dims b q → src.cell p ≠ dst.cell q)
    (mem : Int → V) :
    copyGen b src dst mem = some (storeAll mem ((boxPts src.lay.dims b).map dst.cell)
      ((boxPts src.lay.dims b).map fun p => mem (src.cell p))) := by
  have hemp := (not_isEmpty_iff src.lay.dims b).2 hne
  have hlo := mem_lo_of_nonempty _ _ hemp
  have hsz := length_boxPts _ _ hemp
  unfold copyGen
  simp only [hsz]
  have := copyGenLoop_spec (d := src.lay.dims) (b := b) (mem := mem) (fa := src.addr)
    (ta := dst.addr) (af := src.cell) (at_ := dst.cell)
    (by intro p hp; rw [cell_canon]; exact addr_cell hs (hbs p hp))
    (by
      intro p hp
      rw [← hd, cell_canon]
      exact addr_cell ht (by rw [hd]; exact hbt p hp))
    hdis ((boxPts src.lay.dims b).length + 1) mem b.lo 0 hlo
    (by rw [remPts_lo hlo]; omega) (fun p _ => rfl)
  rw [this, remPts_lo hlo]
  simp

theorem copyLex_spec {V : Type} {src dst : LMap} (hs : src.WF) (ht : dst.WF)
    (hss : src.Strides0) (hts : dst.Strides0)
    (hd : dst.lay.dims = src.lay.dims) {b : Box} (hne : ∃ p, Mem src.lay.dims b p)
    (hbs : SubsetOf src.lay.dims b src.required) (hbt : SubsetOf src.lay.dims b dst.required)
    (hdis : ∀ p q, Mem src.lay.dims b p → Mem src.lay.dims b q → src.cell p ≠ dst.cell q)
    (mem : Int → V) :
    copyLex b src dst mem = some (storeAll mem ((boxPts src.lay.dims b).map dst.cell)
      ((boxPts src.lay.dims b).map fun p => mem (src.cell p))) := by
  have hemp := (not_isEmpty_iff src.lay.dims b).2 hne
  have hlo := mem_lo_of_nonempty _ _ hemp
  obtain ⟨hgs, es, hes, hsubs⟩ := hs
  obtain ⟨hgt, et, het, hsubt⟩ := ht
  have hls := (List.getElem?_eq_some_iff.1 hes).1
  have hlt := (List.getElem?_eq_some_iff.1 het).1
  have he0 : src.lay.e[0]? = some (src.lay.e[0]'(by omega)) := List.getElem?_eq_getElem _
  have ht0 : dst.lay.e[0]? = some (dst.lay.e[0]'(by omega)) := List.getElem?_eq_getElem _
  generalize src.lay.e[0]'(by omega) = f0 at he0
  generalize dst.lay.e[0]'(by omega) = t0 at ht0
  obtain ⟨a1, a2⟩ := hss f0 es he0 hes
  obtain ⟨c1, c2⟩ := hts t0 et ht0 het
  have hb := canon_mem_bounds hlo
  have hmt : ∀ p, Mem src.lay.dims b p → Mem dst.lay.dims et.box p := fun p hp =>
    hsubt p (by rw [hd]; exact hbt p hp)
  have hoffs : offsetLex src.lay src.sect b.lo = some (es.off src.lay.dims b.lo) := by
    have := off_bounds (good_of_getElem? hgs hes) (hsubs _ (hbs _ hlo))
    simp [offsetLex, hes, this]
  have hofft : offsetLex dst.lay dst.sect b.lo = some (et.off dst.lay.dims b.lo) := by
    have := off_bounds (good_of_getElem? hgt het) (hmt _ hlo)
    simp [offsetLex, het, this]
  have hx : 0 < b.hi.x - b.lo.x := by omega
  have hyb : ylo src.lay.dims b < yhi src.lay.dims b := by omega
  have hzb : zlo src.lay.dims b < zhi src.lay.dims b := by omega
  have f2 : (if src.lay.dims.toNat < 2 then (1 : Int) else b.hi.y - b.lo.y) =
      yhi src.lay.dims b - ylo src.lay.dims b := by
    unfold ylo yhi; split <;> split <;> first | rfl | omega
  have f3 : (if src.lay.dims.toNat < 3 then (1 : Int) else b.hi.z - b.lo.z) =
      zhi src.lay.dims b - zlo src.lay.dims b := by
    unfold zlo zhi; split <;> split <;> first | rfl | omega
  have hprod : ¬ (b.hi.x - b.lo.x) * (yhi src.lay.dims b - ylo src.lay.dims b) *
      (zhi src.lay.dims b - zlo src.lay.dims b) = 0 := by
    have := Int.mul_pos (Int.mul_pos hx (show 0 < yhi src.lay.dims b - ylo src.lay.dims b by omega))
      (show 0 < zhi src.lay.dims b - zlo src.lay.dims b by omega)
    omega
  have hst : src.start + es.off src.lay.dims b.lo =
      src.ad3 es ⟨b.lo.x, ylo src.lay.dims b, zlo src.lay.dims b⟩ := by
    rw [off_eq_off3 (good_of_getElem? hgs hes)]
    simp [LMap.ad3, canon, ylo, zlo]
  have hdt : dst.start + et.off dst.lay.dims b.lo =
      dst.ad3 et ⟨b.lo.x, ylo src.lay.dims b, zlo src.lay.dims b⟩ := by
    rw [off_eq_off3 (good_of_getElem? hgt het), hd]
    simp [LMap.ad3, canon, ylo, zlo, hd]
  have cs : ∀ p, p ∈ boxPts src.lay.dims b → src.ad3 es p = src.cell p := by
    intro p hp
    obtain ⟨p1, p2⟩ := (mem_boxPts _ _ _).1 hp
    exact ad3_cell hgs hes (hsubs _ (hbs _ p1)) p2
  have ct : ∀ p, p ∈ boxPts src.lay.dims b → dst.ad3 et p = dst.cell p := by
    intro p hp
    obtain ⟨p1, p2⟩ := (mem_boxPts _ _ _).1 hp
    exact ad3_cell hgt het (hmt _ p1) (by rw [hd]; exact p2)
  have hmain := copyPlanes_spec (V := V) (mem := mem) (P := fun p => p ∈ boxPts src.lay.dims b)
    (af := src.ad3 es) (at_ := dst.ad3 et) (x0 := b.lo.x) (x1 := b.hi.x)
    (y0 := ylo src.lay.dims b) (y1 := yhi src.lay.dims b) (z1 := zhi src.lay.dims b)
    (fs1 := f0.s1) (ts1 := t0.s1) (fs2 := f0.s2) (ts2 := t0.s2)
    (by
      intro p q hp hq
      rw [cs p hp, ct q hq]
      exact hdis p q ((mem_boxPts _ _ _).1 hp).1 ((mem_boxPts _ _ _).1 hq).1)
    (by intro x y z; simp only [LMap.ad3, LexEntry.off3]; omega)
    (by intro x y z; simp only [LMap.ad3, LexEntry.off3]; omega)
    (by intro x y z; simp only [LMap.ad3, LexEntry.off3, a1]; grind)
    (by intro x y z; simp only [LMap.ad3, LexEntry.off3, c1]; grind)
    (by intro x y z; simp only [LMap.ad3, LexEntry.off3, a2]; grind)
    (by intro x y z; simp only [LMap.ad3, LexEntry.off3, c2]; grind)
    (zhi src.lay.dims b - zlo src.lay.dims b).toNat mem (zlo src.lay.dims b) rfl
    (fun p _ => rfl)
    (by
      intro x y z h1 h2 h3 h4 h5 h6
      rw [mem_boxPts]
      exact mem_of_bounds ⟨⟨h1, h2⟩, ⟨h3, h4⟩, ⟨h5, h6⟩⟩)
  have hpl : planesL b.lo.x b.hi.x (ylo src.lay.dims b) (yhi src.lay.dims b) (zhi src.lay.dims b)
      (zlo src.lay.dims b) = boxPts src.lay.dims b := rfl
  have hv : (boxPts src.lay.dims b).map (fun p => mem (src.ad3 es p)) =
      (boxPts src.lay.dims b).map fun p => mem (src.cell p) :=
    List.map_congr_left (fun p hp => by rw [cs p hp])
  rw [hpl, List.map_congr_left ct, hv] at hmain
  unfold copyLex
  simp only [he0, ht0, hd, subIndex, f2, f3, hprod, hoffs, hofft, ne_eq, not_true_eq_false,
    if_false]
  rw [if_neg (by omega)]
  rw [hst, ← hd, hdt, hd]
  exact hmain

end Laik.Lay
