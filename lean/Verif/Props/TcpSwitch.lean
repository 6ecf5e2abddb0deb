import Verif.Model.TcpNoRet
import Verif.Props.MiniColl
import Verif.Props.MpiSwitch
/-!
# C55: a switch of a 1d container over the TCP backend based on GLib
-/

namespace Laik.Tc

open Laik.Mm Laik.Mp Laik.DE Laik.NX

variable {S : Comm → Prop} {c : Comm} {F : Flt} {ty : MTy} {s : MSetup UInt8} {Fr Tr : List TR} {skip : Nat → Int → Int → Bool}
  {prog : Nat → List (CBody UInt8)} {mem : Nat → Mem} {val : Nat → Int → Body}

/-- What is expected at an index of the target: the value of the only owner in the source,
the neutral element without owner, or else a combination of the values of exactly all owners. -/
def Right (s : MSetup UInt8) (Fr : List TR) (val : Nat → Int → Body) (i : Int) (v : Body) : Prop :=
  (∀ q, ownersAt Fr s.n i = [q] → v = val q i) ∧ (ownersAt Fr s.n i = [] → v = s.neutral) ∧
  (2 ≤ (ownersAt Fr s.n i).length → Comb s.red ((ownersAt Fr s.n i).map (fun q => val q i)) v)

theorem switch_evs (hs : MSwitch s Fr Tr skip prog) (hm : MMemOK s Fr Tr skip (fun p => mem (c.proc p)) val) (hn : c.tasks.Nodup)
    (hc : S c) (hN : c.tasks.length = s.n) (hes : s.es = ty.bytes)
    (hsum : ∀ i, CollAt s Fr Tr i → s.redOp = 1 ∧ ∀ a b : Body, a.length = s.es → b.length = s.es → s.red a b = addEl F ty a b) :
    ∃ es t, WF S none es ∧ run es mem = some t ∧ (∀ p x, proj p es x = switchP F ty c prog p x) ∧
      ∀ r ∈ Tr, ∀ i, r.has i → Right s Fr val i (readMem (t (c.proc r.task)) ((s.ctx r.task []).cells.dst r.mapNo i) s.es) := by
  obtain ⟨cf, hcf, hce⟩ := cf_ex (F := F) (P := ∃ i, CollAt s Fr Tr i) hes hm.red (fun ⟨i, hi⟩ => (hsum i hi).2)
  obtain ⟨es, t, m', k', b1, b2, b3, b4, b5, b6⟩ := built hs hm hcf hn hc hN hes (fun h => ⟨(hsum _ h.choose_spec).1, hce h⟩)
    _ prog _ 0 mem (Nat.lt_succ_self _) (XSteps.nil _) (fun p => List.suffix_refl _) (fun p _ => rfl)
  refine ⟨es, t, b1, b2, fun p x => ?_, fun r hr i hi => ?_⟩
  · unfold switchP
    by_cases hp : p ∈ c.tasks
    · rw [if_pos hp]
      have h1 := List.idxOf_lt_length_of_mem hp
      have h2 := b4 (c.tasks.idxOf p) (hN ▸ h1) x
      rwa [Comm.proc_idxOf hp] at h2
    · rw [if_neg hp]
      exact b5 p hp x
  · have h1 := (hs.inv hm hcf b6).2 ⟨fun _ => rfl, fun _ _ => rfl⟩ r hr i hi
    rw [b3 _ (hs.trans.goodT.task r hr)]
    exact ⟨h1.1, h1.2.1, h1.2.2.1⟩

/-- **C55**, values: no process stops because of an error; when a process is done, it has at
every index it owns in the target the element of the only owner in the source, the neutral
element if there was none, or the combination of the elements of all owners; and these are the same in
all executions, whatever the sizes of the boxes. Missing: reductions other than sums, if a collective is used. -/
theorem C55_values_partial (hS : Sep S) (hs : MSwitch s Fr Tr skip prog) (hm : MMemOK s Fr Tr skip (fun p => mem (c.proc p)) val)
    (hc : S c) (hN : c.tasks.length = s.n) (hes : s.es = ty.bytes)
    (hsum : ∀ i, CollAt s Fr Tr i → s.redOp = 1 ∧ ∀ a b : Body, a.length = s.es → b.length = s.es → s.red a b = addEl F ty a b) :
    ∃ t : Nat → Mem,
      (∀ r ∈ Tr, ∀ i, r.has i → Right s Fr val i (readMem (t (c.proc r.task)) ((s.ctx r.task []).cells.dst r.mapNo i) s.es)) ∧
      ∀ (A il ol : Nat) (L : Item → Prop) (τ : Sys Mem),
        Steps A L (Sys.start il ol fun p => switchP F ty c prog p (mem p)) τ →
        ∀ p, (τ.proc p).pc ≠ .dead ∧ (τ.proc p).pc ≠ .run .err ∧ ∀ x, (τ.proc p).pc = .run (.ret x) → x = t p := by
  obtain ⟨es, t, h1, h2, h3, h4⟩ := switch_evs hs hm (hS.nodup c hc) hc hN hes hsum
  refine ⟨t, h4, fun A il ol L τ h => ?_⟩
  simp only [← h3] at h
  exact choreo_results hS h1 h2 h

/-- **C55**, no deadlock: however small inboxes and outboxes are, from every state reached all
processes can go on until they are done, with the expected values, if no receive was given
up, answers to GET and notes that a message was taken are not lost, and messages are asked for
at least twice. Missing as above. -/
theorem C55_completes_partial (hS : Sep S) {N : Nat} (hB : ∀ c, S c → ∀ p ∈ c.tasks, p < N) (hs : MSwitch s Fr Tr skip prog)
    (hm : MMemOK s Fr Tr skip (fun p => mem (c.proc p)) val) (hc : S c) (hN : c.tasks.length = s.n) (hes : s.es = ty.bytes)
    (hsum : ∀ i, CollAt s Fr Tr i → s.redOp = 1 ∧ ∀ a b : Body, a.length = s.es → b.length = s.es → s.red a b = addEl F ty a b)
    {A il ol : Nat} (hA : 2 ≤ A) {L : Item → Prop} (hL : ∀ q h b, ¬ L (.getRep q h b)) (hD : ∀ p h, ¬ L (.disc p h)) {τ : Sys Mem}
    (h : Steps A L (Sys.start il ol fun p => switchP F ty c prog p (mem p)) τ)
    (hf : ∀ p, (∀ m k, (τ.proc p).pc ≠ .failed m k) ∧
      ∀ m q h att k, (τ.proc p).pc = .getting m q h att k → att + 1 < A) :
    ∃ (υ : Sys Mem) (t : Nat → Mem), Steps A (fun _ => False) τ υ ∧ (∀ p, p < N → (υ.proc p).pc = .run (.ret (t p))) ∧
      ∀ r ∈ Tr, ∀ i, r.has i → Right s Fr val i (readMem (t (c.proc r.task)) ((s.ctx r.task []).cells.dst r.mapNo i) s.es) := by
  obtain ⟨es, t, h1, h2, h3, h4⟩ := switch_evs hs hm (hS.nodup c hc) hc hN hes hsum
  simp only [← h3] at h
  obtain ⟨υ, h5, h6⟩ := choreo_completes hS hB h1 h2 hA hL hD h fun p => by
    obtain ⟨h1, h2⟩ := hf p
    cases hc : (τ.proc p).pc with
    | getting m q h att k => exact h2 m q h att k hc
    | failed m k => exact absurd hc (h1 m k)
    | _ => trivial
  exact ⟨υ, t, h5, h6, h4⟩

/-- **C55**: if a collective is used for another reduction than the sum, some process never
is done, in any execution. -/
theorem C55_other_reductions_never_end (hs : MSwitch s Fr Tr skip prog)
    (hm : MMemOK s Fr Tr skip (fun p => mem (c.proc p)) val) (hn : c.tasks.Nodup) (hN : c.tasks.length = s.n) (hes : s.es = ty.bytes)
    {i : Int} (hi : CollAt s Fr Tr i) (hop : s.redOp ≠ 1) :
    ∃ p, p ∈ c.tasks ∧ ∀ (A il ol : Nat) (L : Item → Prop) (τ : Sys Mem),
      Steps A L (Sys.start il ol fun p => switchP F ty c prog p (mem p)) τ → ∀ x, (τ.proc p).pc ≠ .run (.ret x) := by
  obtain ⟨cf, hcf, _⟩ := cf_ex (F := F) (P := False) hes hm.red (fun h => h.elim)
  have hop' : opOf s.redOp ≠ some .sum := by
    unfold opOf
    split <;> simp_all
  have hn2 := hi.2.1
  obtain ⟨p, hp, hp0⟩ : ∃ p, p ∈ ownersAt Tr s.n i ∧ ((ownersAt Tr s.n i).length = s.n → p = 0) := by
    by_cases e : (ownersAt Tr s.n i).length = s.n
    · refine ⟨0, ?_, fun _ => rfl⟩
      have h1 : ownersAt Tr s.n i = List.range s.n := by
        unfold ownersAt at e ⊢
        exact List.filter_sublist.eq_of_length (by rw [e, List.length_range])
      rw [h1, List.mem_range]
      omega
    · rcases hi.2.2.2 with h | h
      · exact absurd h e
      · obtain ⟨q, hq⟩ := List.length_eq_one_iff.1 h
        exact ⟨q, by rw [hq]; simp, fun h => absurd h e⟩
  have hpn : p < s.n := List.mem_range.1 (List.mem_filter.1 hp).1
  obtain ⟨r, a, d, k, hr, er⟩ := hs.hasColl hm hcf hi hp
  have hpc : p < c.tasks.length := hN ▸ hpn
  have hmem := Comm.proc_mem hpc
  have hidx : c.tasks.idxOf (c.proc p) = p := Comm.proc_inj hn (List.idxOf_lt_length_of_mem hmem) hpc (Comm.proc_idxOf hmem)
  refine ⟨c.proc p, hmem, fun A il ol L τ h x hx => ?_⟩
  have h0 : NoRet (switchP F ty c prog (c.proc p) (mem (c.proc p))) := by
    unfold switchP
    rw [if_pos hmem, hidx]
    refine NoRet.tcpP hop' ?_ hpc (by omega) _ hr _
    split at er
    · rename_i e
      exact Or.inr ⟨er, hp0 e⟩
    · exact Or.inl er
  have := NoRet.steps h (p := c.proc p) h0
  rw [hx] at this
  exact this

/-! ### Cases meeting the hypotheses -/

/-- Elements are bytes, for two processes. The mapping of the source starts at address 10,
that of the target at address 20, both at index 0. -/
def byteSetup (redOp : Nat) (u : Bool) : MSetup UInt8 :=
  { n := 2, es := 1, redOp := redOp, red := addEl noFlt .uint8,
    neutral := [0], useReduce := u,
    fm := fun _ m => if m = 0 then some (10, 0) else none, tm := fun _ m => if m = 0 then some (20, 0) else none }

theorem byte_maps (o : Nat) (u : Bool) (l l' : List Nat) (p : Nat) : MapsOK (byteSetup o u) (rep l) (rep l') p where
  src r hr _ := by
    obtain ⟨_, h1, _, h2⟩ := rep_mem hr
    exact ⟨(10, 0), by rw [h1]; rfl, by rw [h2]⟩
  dst r hr _ := by
    obtain ⟨_, h1, _, h2⟩ := rep_mem hr
    exact ⟨(20, 0), by rw [h1]; rfl, by rw [h2]⟩

theorem byte_mem (o : Nat) (u : Bool) (l l' : List Nat) (m0 : Nat → Mem) :
    MMemOK (byteSetup o u) (rep l) (rep l') (fun _ _ _ => false) m0 (fun p i => [m0 p (10 + i.toNat)]) where
  sep p := by
    have key : ∀ i a, CellOf ((byteSetup o u).ctx p []).cells (rep l) (rep l') p i a →
        0 ≤ i ∧ i < 4 ∧ (a = 10 + i.toNat ∨ a = 20 + i.toNat) := by
      rintro i a (⟨r, hr, _, hi, rfl⟩ | ⟨r, hr, _, hi, rfl⟩)
      · obtain ⟨_, h1, h2, _⟩ := rep_mem hr
        rw [h1]
        refine ⟨((h2 i).1 hi).1, ((h2 i).1 hi).2, Or.inl ?_⟩
        show 10 + (i - 0).toNat * 1 = _
        rw [Int.sub_zero, Nat.mul_one]
      · obtain ⟨_, h1, h2, _⟩ := rep_mem hr
        rw [h1]
        refine ⟨((h2 i).1 hi).1, ((h2 i).1 hi).2, Or.inr ?_⟩
        show 20 + (i - 0).toNat * 1 = _
        rw [Int.sub_zero, Nat.mul_one]
    intro i j a b ha hb
    obtain ⟨a1, a2, a3⟩ := key i a ha
    obtain ⟨b1, b2, b3⟩ := key j b hb
    show (i = j ∧ a = b) ∨ a + 1 ≤ b ∨ b + 1 ≤ a
    omega
  skip r _ r' _ _ h := by cases h
  val r hr i hi := by
    obtain ⟨_, h1, h2, _⟩ := rep_mem hr
    rw [h1]
    show [m0 r.task (10 + i.toNat)] = [m0 r.task (10 + (i - 0).toNat * 1 + 0)]
    rw [Int.sub_zero, Nat.mul_one, Nat.add_zero]
  red _ _ _ _ := rfl
  neutral := rfl

theorem byte_sum (o : Nat) (u : Bool) (a b : Body) (_ : a.length = (byteSetup o u).es) (_ : b.length = (byteSetup o u).es) :
    (byteSetup o u).red a b = addEl noFlt .uint8 a b := rfl

theorem byte_trans : TransOK 2 (rep [0, 1]) (rep [0, 1]) :=
  ⟨⟨by decide, by decide, by decide⟩, ⟨by decide, by decide, by decide⟩, by decide, by decide, fun r hr => by revert r; decide,
    fun r hr => by revert r; decide⟩

theorem byte_switch {o : Nat} (ho : o ≠ 0) (u : Bool) :
    ∃ prog, MSwitch (byteSetup o u) (rep [0, 1]) (rep [0, 1]) (fun _ _ _ => false) prog := by
  refine (C51_switch_exists_iff (s := byteSetup o u) byte_trans (fun p _ => byte_maps o u _ _ p) _).2 ?_
  intro i hi
  refine ⟨?_, ?_⟩
  · have : (ownersAt (rep [0, 1]) (byteSetup o u).n i).length ≠ 1 := by
      show (ownersAt (rep [0, 1]) 2 i).length ≠ 1
      unfold ownersAt rep
      by_cases h : TR.has ⟨0, 0, iv 0 4, 0⟩ i
      · have h' : TR.has ⟨1, 0, iv 0 4, 0⟩ i := h
        simp [List.range, List.range.loop, h, h']
      · have h' : ¬ TR.has ⟨1, 0, iv 0 4, 0⟩ i := h
        simp [List.range, List.range.loop, h, h']
    rw [if_neg this]
    exact ho
  · intro _ h8
    have := owners_le (rep [0, 1]) (byteSetup o u).n i
    have : (byteSetup o u).n = 2 := rfl
    omega

/-- Byte at address `a` of process `p` before the switch. -/
def byteMem (p : Nat) : Mem := fun a => UInt8.ofNat (p + a)

/-- Both processes have a copy before and after the switch: sums, by the collective (`u`) or
without it, with boxes for no message. -/
example (u : Bool) : ∃ (prog : Nat → List (CBody UInt8)) (υ : Sys Mem) (t : Nat → Mem), MSwitch (byteSetup 1 u) (rep [0, 1]) (rep [0, 1]) (fun _ _ _ => false) prog ∧
    Steps 2 (fun _ => False) (Sys.start 0 0 fun p => switchP noFlt .uint8 w2 prog p (byteMem p)) υ ∧
    (∀ p, p < 2 → (υ.proc p).pc = .run (.ret (t p))) ∧
    t 0 23 = 27 ∧ t 1 23 = 27 := by
  obtain ⟨prog, hs⟩ := byte_switch (by decide : 1 ≠ 0) u
  have hm := byte_mem 1 u [0, 1] [0, 1] (fun p => byteMem (w2.proc p))
  obtain ⟨υ, t, h1, h2, h3⟩ := C55_completes_partial w2_sep (N := 2) (fun c hc p hp => by
      subst hc
      simp [w2] at hp
      omega) hs hm (by rfl) (by rfl) (ty := .uint8) (by rfl) (F := noFlt) (fun i _ => ⟨rfl, byte_sum 1 u⟩)
    (A := 2) (il := 0) (ol := 0) (Nat.le_refl _) (L := fun _ => False)
    (fun _ _ _ h => h) (fun _ _ h => h) .refl fun p => ⟨(by intro m k h; cases h), by intro m q h att k h'; cases h'⟩
  have e : ownersAt (rep [0, 1]) (byteSetup 1 u).n 3 = [0, 1] := by show ownersAt (rep [0, 1]) 2 3 = _; decide
  have g : ∀ v : UInt8, Comb (byteSetup 1 u).red [[13], [14]] [v] → v = 27 := by
    intro v hv
    have := Comb.unique (Q := fun v => v.length = 1) (fun _ _ _ _ => rfl) (fun a b _ _ => by
        show leN 1 _ = leN 1 _
        rw [Nat.add_comm]) (fun a b c ha hb hc => by
        obtain ⟨x, rfl⟩ := List.length_eq_one_iff.1 ha
        obtain ⟨y, rfl⟩ := List.length_eq_one_iff.1 hb
        obtain ⟨z, rfl⟩ := List.length_eq_one_iff.1 hc
        show [_] = [_]
        refine congrArg (fun x => [x]) ?_
        apply UInt8.toNat_inj.1
        simp [unle, byteSetup, addEl, leN, MTy.bytes]
        omega) hv (.app (.one [13]) (.one [14]) (List.Perm.refl _)) (by decide)
    exact (List.cons.inj this).1
  refine ⟨prog, υ, t, hs, h1, h2, g _ ?_, g _ ?_⟩
  · have h4 := (h3 ⟨0, 0, iv 0 4, 0⟩ (by decide) 3 (by decide)).2.2
    rw [e] at h4
    exact h4 (by decide)
  · have h4 := (h3 ⟨1, 0, iv 0 4, 0⟩ (by decide) 3 (by decide)).2.2
    rw [e] at h4
    exact h4 (by decide)

/-- Case for `C55_values_partial`: the same switch. -/
example (u : Bool) : ∃ prog t, MSwitch (byteSetup 1 u) (rep [0, 1]) (rep [0, 1]) (fun _ _ _ => false) prog ∧
    ∀ (τ : Sys Mem), Steps 2 (fun _ => True) (Sys.start 0 0 fun p => switchP noFlt .uint8 w2 prog p (byteMem p)) τ →
      ∀ x, (τ.proc 1).pc = .run (.ret x) → x = t := by
  obtain ⟨prog, hs⟩ := byte_switch (by decide : 1 ≠ 0) u
  have hm := byte_mem 1 u [0, 1] [0, 1] (fun p => byteMem (w2.proc p))
  obtain ⟨t, -, h⟩ := C55_values_partial w2_sep hs hm (by rfl) (by rfl) (ty := .uint8) (by rfl) (F := noFlt) (fun i _ => ⟨rfl, byte_sum 1 u⟩)
  exact ⟨prog, t 1, hs, fun τ hτ => (h 2 0 0 _ τ hτ 1).2.2⟩

/-- Case for `C55_other_reductions_never_end`: maximum (number 4). -/
example : ∃ prog, MSwitch (byteSetup 4 true) (rep [0, 1]) (rep [0, 1]) (fun _ _ _ => false) prog ∧
    ∃ p, p ∈ w2.tasks ∧ ∀ (A il ol : Nat) (L : Item → Prop) (τ : Sys Mem),
      Steps A L (Sys.start il ol fun p => switchP noFlt .uint8 w2 prog p (byteMem p)) τ → ∀ x, (τ.proc p).pc ≠ .run (.ret x) := by
  obtain ⟨prog, hs⟩ := byte_switch (by decide : 4 ≠ 0) true
  have hm := byte_mem 4 true [0, 1] [0, 1] (fun p => byteMem (w2.proc p))
  exact ⟨prog, hs, C55_other_reductions_never_end hs hm (by decide) (by rfl) (by rfl) (i := 3)
    ⟨rfl, by decide, by show (ownersAt (rep [0, 1]) 2 3).length = 2; decide, by
      left; show (ownersAt (rep [0, 1]) 2 3).length = 2; decide⟩ (by decide)⟩

end Laik.Tc
