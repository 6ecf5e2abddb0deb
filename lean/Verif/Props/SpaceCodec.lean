import Verif.Model.SpaceCodec
/-!
# C03: spaces survive serialization
-/

namespace Laik.Codec

/-- The first `d` coordinates of two points agree. -/
def SameIdx (d : Dims) (a b : Idx) : Prop := ∀ k, k < d.toNat → a.get k = b.get k

theorem sameIdx_of (d : Dims) (a b : Idx)
    (h : a.x = b.x ∧ (d.toNat > 1 → a.y = b.y) ∧ (d.toNat > 2 → a.z = b.z)) : SameIdx d a b :=
  (forall_dims d (fun k => a.get k = b.get k)).2 h

/-- Parsing the serialized form of any space into any space object succeeds
and yields the same dimensionality and bounds (for all integers). -/
theorem C03_roundtrip (d : Dims) (b : Box) (s : SpaceObj) :
    ∃ s', spaceSet s (serialize d b) = (true, s') ∧ s'.dims = d.toNat ∧
      SameIdx d s'.box.lo b.lo ∧ SameIdx d s'.box.hi b.hi ∧
      s'.rangeSpaceSet = s.rangeSpaceSet := by
  have st1 : ∀ t, Stops (',' :: t) := fun t => ⟨',', t, rfl, by decide⟩
  have st2 : ∀ t, Stops ('/' :: t) := fun t => ⟨'/', t, rfl, by decide⟩
  have st3 : ∀ t, Stops (')' :: t) := fun t => ⟨')', t, rfl, by decide⟩
  cases d
  · refine ⟨⟨1, s.rangeSpaceSet, ⟨⟨b.lo.x, s.box.lo.y, s.box.lo.z⟩, ⟨b.hi.x, s.box.hi.y, s.box.hi.z⟩⟩⟩, ?_, ?_, ?_, ?_, ?_⟩
    · simp only [serialize, spaceSet, List.append_assoc, List.cons_append, List.nil_append]
      simp only [show ('1' : Char).toNat = 49 from rfl]
      simp only [fmt1, sscanf, if_true, scanInt_printInt _ _ (st2 _), scanInt_printInt _ _ (st3 _)]
      simp
    · rfl
    · exact sameIdx_of _ _ _ (by simp)
    · exact sameIdx_of _ _ _ (by simp)
    · rfl
  · refine ⟨⟨2, s.rangeSpaceSet, ⟨⟨b.lo.x, b.lo.y, s.box.lo.z⟩, ⟨b.hi.x, b.hi.y, s.box.hi.z⟩⟩⟩, ?_, ?_, ?_, ?_, ?_⟩
    · simp only [serialize, spaceSet, List.append_assoc, List.cons_append, List.nil_append]
      simp only [show ('2' : Char).toNat = 50 from rfl]
      simp only [fmt2, sscanf, if_true, scanInt_printInt _ _ (st2 _), scanInt_printInt _ _ (st3 _),
        scanInt_printInt _ _ (st1 _)]
      simp
    · rfl
    · exact sameIdx_of _ _ _ (by simp)
    · exact sameIdx_of _ _ _ (by simp)
    · rfl
  · refine ⟨⟨3, s.rangeSpaceSet, b⟩, ?_, ?_, ?_, ?_, ?_⟩
    · simp only [serialize, spaceSet, List.append_assoc, List.cons_append, List.nil_append]
      simp only [show ('3' : Char).toNat = 51 from rfl]
      simp only [fmt3, sscanf, if_true, scanInt_printInt _ _ (st2 _), scanInt_printInt _ _ (st3 _),
        scanInt_printInt _ _ (st1 _)]
      simp
    · rfl
    · exact sameIdx_of _ _ _ (by simp)
    · exact sameIdx_of _ _ _ (by simp)
    · rfl

/-- Different spaces have different serialized forms. -/
theorem C03_injective (d e : Dims) (a b : Box) (h : serialize d a = serialize e b) :
    d = e ∧ SameIdx d a.lo b.lo ∧ SameIdx d a.hi b.hi := by
  have s0 : SpaceObj := ⟨0, false, a⟩
  obtain ⟨s1, h1, h2, h3, h4, _⟩ := C03_roundtrip d a s0
  obtain ⟨s2, g1, g2, g3, g4, _⟩ := C03_roundtrip e b s0
  rw [h, g1] at h1
  simp only [Prod.mk.injEq, true_and] at h1
  subst h1
  have hde : d = e := by
    rw [h2] at g2; revert g2; cases d <;> cases e <;> simp
  subst hde
  exact ⟨rfl, fun k hk => (h3 k hk).symm.trans (g3 k hk), fun k hk => (h4 k hk).symm.trans (g4 k hk)⟩

/-- An existing, properly created space object that is updated from the store
behaves in all range operations like the original: it denotes the same set. -/
theorem C03_update_equiv (d : Dims) (b : Box) (id : Nat) (s : SpaceObj)
    (hs : s.rangeSpaceSet = true) :
    ∃ s' r, storeUpdate s (serialize d b) = some s' ∧ asRange id s' = some r ∧
      (∃ sp, r.space = some sp ∧ sp.dims = d) ∧ ∀ p, Mem d r.box p ↔ Mem d b p := by
  obtain ⟨s', h1, h2, h3, h4, h5⟩ := C03_roundtrip d b s
  rw [hs] at h5
  have hm : ∀ p, Mem d s'.box p ↔ Mem d b p := by
    intro p
    constructor <;> intro hp k hk <;> have := hp k hk <;> have := h3 k hk <;> have := h4 k hk <;> omega
  cases d
  · refine ⟨s', ⟨some ⟨id, .d1, s'.box⟩, s'.box⟩, by simp [storeUpdate, h1],
      by simp [asRange, h5, h2], ⟨_, rfl, rfl⟩, hm⟩
  · refine ⟨s', ⟨some ⟨id, .d2, s'.box⟩, s'.box⟩, by simp [storeUpdate, h1],
      by simp [asRange, h5, h2], ⟨_, rfl, rfl⟩, hm⟩
  · refine ⟨s', ⟨some ⟨id, .d3, s'.box⟩, s'.box⟩, by simp [storeUpdate, h1],
      by simp [asRange, h5, h2], ⟨_, rfl, rfl⟩, hm⟩

/-- Violation of the "behaves like the original" part: a space first obtained
from the store on another process (fresh object) never gets `range.space`
set, so every use of its own range reads uninitialised memory. -/
theorem C03_fresh_space_undefined (d : Dims) (b junk : Box) (id : Nat) :
    ∃ s', storeGetFresh junk (serialize d b) = some s' ∧ s'.dims = d.toNat ∧
      asRange id s' = none := by
  obtain ⟨s', h1, h2, h3, h4, h5⟩ := C03_roundtrip d b (newSpace junk)
  refine ⟨s', by simp [storeGetFresh, h1], h2, ?_⟩
  have : s'.rangeSpaceSet = false := h5
  simp [asRange, this]

/-- All corner coordinates are 64-bit integers. -/
def Int64Box (b : Box) : Prop :=
  ∀ k, k < 3 → -(2^63) ≤ b.lo.get k ∧ b.lo.get k < 2^63 ∧ -(2^63) ≤ b.hi.get k ∧ b.hi.get k < 2^63

/-- In 1d and 2d the string always fits the 100 byte buffer. -/
theorem C03_fits_1d_2d (d : Dims) (b : Box) (hd : d ≠ .d3) (hb : Int64Box b) :
    fits (serialize d b) := by
  have h0 := hb 0 (by omega); have h1 := hb 1 (by omega)
  simp only [Idx.get] at h0 h1
  have a1 := printInt_length_le b.lo.x h0.1 h0.2.1
  have a2 := printInt_length_le b.hi.x h0.2.2.1 h0.2.2.2
  have a3 := printInt_length_le b.lo.y h1.1 h1.2.1
  have a4 := printInt_length_le b.hi.y h1.2.2.1 h1.2.2.2
  cases d
  · simp [fits, serialize]; omega
  · simp [fits, serialize]; omega
  · exact absurd rfl hd

/-- In 3d it fits exactly when the six numbers print to at most 91 characters. -/
theorem C03_fits_3d_iff (b : Box) : fits (serialize .d3 b) ↔
    (printInt b.lo.x).length + (printInt b.lo.y).length + (printInt b.lo.z).length +
    (printInt b.hi.x).length + (printInt b.hi.y).length + (printInt b.hi.z).length ≤ 91 := by
  simp [fits, serialize]; omega

/-- Violation: there is a 3d space with 64-bit bounds whose serialized form
overflows the buffer. -/
theorem C03_overflow_3d : ∃ b, Int64Box b ∧ ¬ fits (serialize .d3 b) := by
  refine ⟨⟨⟨-(2^63), -(2^63), -(2^63)⟩, ⟨2^63-1, 2^63-1, 2^63-1⟩⟩, ?_, ?_⟩
  · intro k hk
    match k, hk with
    | 0, _ => decide
    | 1, _ => decide
    | 2, _ => decide
  · rw [C03_fits_3d_iff]
    have h1 : (printInt (-(2^63))).length = 20 := by
      rw [show (-(2^63) : Int) = Int.negSucc 9223372036854775807 from rfl]
      simp [printInt, digits]
    have h2 : (printInt (2^63-1)).length = 19 := by
      rw [show ((2^63-1) : Int) = Int.ofNat 9223372036854775807 from rfl]
      simp [printInt, digits]
    simp only [h1, h2]; omega

example : serialize .d2 ⟨⟨-3, 0, 0⟩, ⟨17, 5, 0⟩⟩ = "2(-3,0/17,5)".toList := by
  decide +kernel
example : (spaceSet ⟨1, true, ⟨⟨0,0,0⟩,⟨1,0,0⟩⟩⟩ "2(-3,0/17,5)".toList) =
    (true, ⟨2, true, ⟨⟨-3,0,0⟩,⟨17,5,0⟩⟩⟩) := by decide
example : Int64Box ⟨⟨-3, 0, 0⟩, ⟨17, 5, 0⟩⟩ := by
  intro k hk
  match k, hk with
  | 0, _ => decide
  | 1, _ => decide
  | 2, _ => decide

end Laik.Codec
