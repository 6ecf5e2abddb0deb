import Mathlib.Data.List.Nodup
import Verif.Model.MiniMpi
/-!
# Invariant of message passing in the TCP backend based on GLib
-/

namespace Laik.Mm

open Function

variable {β : Type}

/-- How often a header was made. -/
def uses : Option Nat → Nat
  | none => 0
  | some n => n + 1

theorem header_fst (fl : Flows) (g ty s r tag : Nat) :
    (header fl g ty s r tag).1 = ⟨g, ty, s, r, tag, uses (fl ⟨g, ty, s, r, tag, 0⟩)⟩ := by
  unfold header
  simp only
  split <;> rename_i h <;> simp [h, uses]

theorem header_snd (fl : Flows) (g ty s r tag : Nat) (k : Hd) :
    uses ((header fl g ty s r tag).2 k)
      = if k = ⟨g, ty, s, r, tag, 0⟩ then uses (fl k) + 1 else uses (fl k) := by
  unfold header
  simp only
  split <;> rename_i h <;> (by_cases hk : k = ⟨g, ty, s, r, tag, 0⟩)
  · subst hk
    simp [h, uses]
  · simp [hk]
  · subst hk
    simp [h, uses]
  · simp [hk]

/-- Header of message number `n` of a channel. -/
def hd (X : Chan) (n : Nat) : Hd := ⟨X.c.gen, X.ty, X.s, X.r, X.tag, n⟩

/-- Communicators which can be used side by side: ranks of one are different
processes, and two communicators of the same generation have no process in common. -/
structure Sep (S : Comm → Prop) : Prop where
  nodup : ∀ c, S c → c.tasks.Nodup
  one : ∀ a b p, S a → S b → a.gen = b.gen → p ∈ a.tasks → p ∈ b.tasks → a = b

/-- Channel `X` goes from process `P` to process `Q`. -/
structure Ends (S : Comm → Prop) (X : Chan) (P Q : Nat) : Prop where
  mem : S X.c
  fst : X.c.tasks[X.s]? = some P
  snd : X.c.tasks[X.r]? = some Q
  ne : X.s ≠ X.r

variable {S : Comm → Prop}

theorem Ends.det {X : Chan} {P Q P' Q' : Nat} (h : Ends S X P Q) (h' : Ends S X P' Q') :
    P = P' ∧ Q = Q' := by
  constructor
  · have := h.fst.symm.trans h'.fst
    simpa using this
  · have := h.snd.symm.trans h'.snd
    simpa using this

theorem Ends.proc_ne (hS : Sep S) {X : Chan} {P Q : Nat} (h : Ends S X P Q) : P ≠ Q := by
  intro he
  obtain ⟨h1, e1⟩ := List.getElem?_eq_some_iff.mp h.fst
  obtain ⟨h2, e2⟩ := List.getElem?_eq_some_iff.mp h.snd
  exact h.ne ((hS.nodup _ h.mem).getElem_inj_iff.mp (by rw [e1, e2, he]))

/-- At one process a header belongs to one channel. -/
theorem Ends.uniq (hS : Sep S) {X X' : Chan} {P Q P' Q' n n' : Nat} (h : Ends S X P Q)
    (h' : Ends S X' P' Q') (e : hd X n = hd X' n')
    (hp : P = P' ∨ P = Q' ∨ Q = P' ∨ Q = Q') : X = X' ∧ n = n' := by
  have m1 : P ∈ X.c.tasks := List.mem_of_getElem? h.fst
  have m2 : Q ∈ X.c.tasks := List.mem_of_getElem? h.snd
  have m3 : P' ∈ X'.c.tasks := List.mem_of_getElem? h'.fst
  have m4 : Q' ∈ X'.c.tasks := List.mem_of_getElem? h'.snd
  obtain ⟨c, ty, s, r, tag⟩ := X
  obtain ⟨c', ty', s', r', tag'⟩ := X'
  simp only [hd, Hd.mk.injEq] at e
  obtain ⟨e1, rfl, rfl, rfl, rfl, rfl⟩ := e
  have hc : c = c' := by
    rcases hp with hp | hp | hp | hp <;> subst hp
    · exact hS.one _ _ _ h.mem h'.mem e1 m1 m3
    · exact hS.one _ _ _ h.mem h'.mem e1 m1 m4
    · exact hS.one _ _ _ h.mem h'.mem e1 m2 m3
    · exact hS.one _ _ _ h.mem h'.mem e1 m2 m4
  subst hc
  exact ⟨rfl, rfl⟩

theorem Snd.OK.ends {p : Nat} {m : Snd} (h : m.OK S p) :
    ∃ q, peerOf m.c m.rank m.dst = some q ∧ Ends S m.chan p q := by
  obtain ⟨h1, h2, h3, h4⟩ := h
  refine ⟨m.c.tasks[m.dst], ?_, h1, h2, ?_, fun e => h4 e.symm⟩
  · simp [peerOf, h4, h3]
  · simp [Snd.chan, h3]

theorem Rcv.OK.ends {p : Nat} {m : Rcv} (h : m.OK S p) :
    ∃ q, peerOf m.c m.rank m.src = some q ∧ Ends S m.chan q p := by
  obtain ⟨h1, h2, h3, h4⟩ := h
  refine ⟨m.c.tasks[m.src], ?_, h1, ?_, h2, h4⟩
  · simp [peerOf, h4, h3]
  · simp [Rcv.chan, h3]

/-- 1 if the header of the next message of `X` was made for a receive not yet done. -/
def pend : Pc β → Chan → Nat
  | .getting m _ _ _ _, X => if X = m.chan then 1 else 0
  | .failed m _, X => if X = m.chan then 1 else 0
  | _, _ => 0

theorem pend_ends {p : Nat} {pc : Pc β} (hu : Uses S p pc.abs) {X : Chan} (h : pend pc X ≠ 0) :
    ∃ q, Ends S X q p := by
  cases pc <;> simp only [pend] at h <;> try exact absurd rfl h
  all_goals
    split at h
    · subst X
      simp only [Pc.abs] at hu
      cases hu with
      | recv h _ =>
        obtain ⟨q, _, he⟩ := h.ends
        exact ⟨q, he⟩
    · exact absurd rfl h

def Sys.out (σ : Sys β) (p : Nat) (h : Hd) : Option (Option Body) := (σ.proc p).outbox.look h
def Sys.inb (σ : Sys β) (p : Nat) (h : Hd) : Option (Option Body) := (σ.proc p).inbox.look h

/-- What an item under way says. -/
def ItemOK (S : Comm → Prop) (sent : Chan → List Body) : Item → Prop
  | .tryTask p q h => ∃ X n, Ends S X p q ∧ h = hd X n ∧ n < (sent X).length
  | .tryMsg p q h b => ∃ X n, Ends S X p q ∧ h = hd X n ∧ (sent X)[n]? = some b
  | .disc p h => ∃ X q n, Ends S X p q ∧ h = hd X n ∧ n < (sent X).length
  | .getReq q p h => ∃ X n, Ends S X p q ∧ h = hd X n
  | .getRep q h b => ∃ X p n, Ends S X p q ∧ h = hd X n ∧ (sent X)[n]? = some b
  | .addMsg p q h b => ∃ X n, Ends S X p q ∧ h = hd X n ∧ (sent X)[n]? = some b
  | .addAck p h => ∃ X q n, Ends S X p q ∧ h = hd X n ∧ n < (sent X).length

/-- Invariant, relating the state to one with ideal channels. -/
structure Inv (S : Comm → Prop) (σ : Sys β) (t : Ideal β) : Prop where
  pc : ∀ p, (σ.proc p).pc ≠ .dead ∧ t.prog p = (σ.proc p).pc.abs
  bg : ∀ p, t.bg p = (σ.proc p).bg
  use : ∀ p, Uses S p (t.prog p)
  useB : ∀ p, ∀ m ∈ t.bg p, m.OK S p
  fS : ∀ X P Q, Ends S X P Q → uses ((σ.proc P).flows (hd X 0)) = (t.sent X).length
  fR : ∀ X P Q, Ends S X P Q →
    uses ((σ.proc Q).flows (hd X 0)) = t.rd X + pend (σ.proc Q).pc X
  get : ∀ p m q h att k, (σ.proc p).pc = .getting m q h att k →
    h = hd m.chan (t.rd m.chan) ∧ Ends S m.chan q p
  syn : ∀ p q h k, (σ.proc p).pc = .syncing q h k →
    ∃ X n, Ends S X p q ∧ h = hd X n ∧ n < (t.sent X).length
  out : ∀ X P Q n, Ends S X P Q → (n < (t.sent X).length ↔ σ.out P (hd X n) ≠ none) ∧
    ∀ b, σ.out P (hd X n) = some (some b) → (t.sent X)[n]? = some b
  inb : ∀ X P Q n, Ends S X P Q → (n < t.rd X → σ.inb Q (hd X n) ≠ none) ∧
    (σ.inb Q (hd X n) ≠ none → n < (t.sent X).length) ∧
    (σ.inb Q (hd X n) = some none → n < t.rd X) ∧
    ∀ b, σ.inb Q (hd X n) = some (some b) → (t.sent X)[n]? = some b
  net : ∀ x ∈ σ.net, ItemOK S t.sent x

/-! ### boxes -/

theorem look_map (l : List (Hd × Option Body)) (h h' : Hd) :
    look (l.map fun e => if e.1 = h then (h, none) else e) h'
      = if h' = h ∧ look l h ≠ none then some none else look l h' := by
  induction l with
  | nil => simp [look]
  | cons e l ih =>
    by_cases he : e.1 = h
    · subst he
      by_cases hh : h' = e.1
      · simp [look, hh]
      · have h2 : ¬ e.1 = h' := fun x => hh x.symm
        simp [look, hh, h2, ih]
    · by_cases hh : h' = h
      · subst hh
        simp only [List.map_cons, he, if_false, look, ih]
      · simp only [List.map_cons, he, if_false, look, ih, hh, false_and]

theorem Box.look_add (b : Box) (h h' : Hd) (v : Body) :
    (b.add h v).look h' = if h' = h ∧ b.look h = none then some (some v) else b.look h' := by
  unfold Box.add
  cases hb : b.look h with
  | some x => simp
  | none =>
    simp only [Box.look, Mm.look]
    by_cases hh : h = h'
    · subst hh
      simp
    · have h2 : ¬ h' = h := fun x => hh x.symm
      simp [hh, h2]

theorem Box.look_discard (b : Box) (h h' : Hd) :
    (b.discard h).look h' = b.look h' ∨
      (h' = h ∧ ∃ v, b.look h' = some (some v) ∧ (b.discard h).look h' = some none) := by
  unfold Box.discard
  split
  · exact Or.inl rfl
  · split
    · rename_i v hv
      simp only [Box.look] at hv ⊢
      rw [look_map]
      by_cases hh : h' = h
      · subst hh
        right
        exact ⟨rfl, v, hv, by simp [hv]⟩
      · left
        simp [hh]
    · exact Or.inl rfl

theorem Box.get_some {b : Box} {h : Hd} {v : Body} : b.get h = some v ↔ b.look h = some (some v) := by
  unfold Box.get
  split
  · rename_i w hw
    rw [hw]
    simp
  · rename_i hn
    constructor
    · simp
    · intro h2
      exact absurd h2 (hn v)

theorem Box.look_try (b : Box) (h h' : Hd) (v : Body) :
    (b.tryAdd h v).2.look h' = b.look h' ∨
      (h' = h ∧ b.look h' = none ∧ (b.tryAdd h v).2.look h' = some (some v)) := by
  unfold Box.tryAdd
  split
  · exact Or.inl rfl
  · rename_i hn
    split
    · exact Or.inl rfl
    · by_cases hh : h' = h
      · subst hh
        right
        exact ⟨rfl, hn, by simp [Box.look, Mm.look]⟩
      · left
        have h2 : ¬ h = h' := fun x => hh x.symm
        simp [Box.look, Mm.look, h2]

theorem Box.try_in {b : Box} {h : Hd} {v : Body} (hr : (b.tryAdd h v).1 = true) :
    (b.tryAdd h v).2.look h ≠ none := by
  unfold Box.tryAdd at hr ⊢
  split
  · rename_i hn
    simp [hn]
  · rename_i hn
    simp only [hn] at hr
    split
    · rename_i hl
      simp [hl] at hr
    · simp [Box.look, Mm.look]

theorem Box.add_in (b : Box) (h : Hd) (v : Body) : (b.add h v).look h ≠ none := by
  rw [Box.look_add]
  split
  · simp
  · rename_i hn
    simpa using hn

/-! ### steps which send or receive nothing -/

theorem ItemOK.mono {sent sent' : Chan → List Body} (hm : ∀ X, ∃ l, sent' X = sent X ++ l) {x : Item}
    (h : ItemOK S sent x) : ItemOK S sent' x := by
  have h1 : ∀ (X : Chan) (n : Nat) (b : Body), (sent X)[n]? = some b → (sent' X)[n]? = some b := by
    intro X n b hb
    obtain ⟨l, hl⟩ := hm X
    rw [hl, List.getElem?_append_left (List.getElem?_eq_some_iff.mp hb).1]
    exact hb
  have h2 : ∀ (X : Chan) (n : Nat), n < (sent X).length → n < (sent' X).length := by
    intro X n hb
    obtain ⟨l, hl⟩ := hm X
    rw [hl, List.length_append]
    omega
  cases x with
  | tryTask p q h' => obtain ⟨X, n, a, b, c⟩ := h; exact ⟨X, n, a, b, h2 _ _ c⟩
  | tryMsg p q h' b => obtain ⟨X, n, a, b, c⟩ := h; exact ⟨X, n, a, b, h1 _ _ _ c⟩
  | disc p h' => obtain ⟨X, q, n, a, b, c⟩ := h; exact ⟨X, q, n, a, b, h2 _ _ c⟩
  | getReq q p h' => exact h
  | getRep q h' b => obtain ⟨X, p, n, a, b, c⟩ := h; exact ⟨X, p, n, a, b, h1 _ _ _ c⟩
  | addMsg p q h' b => obtain ⟨X, n, a, b, c⟩ := h; exact ⟨X, n, a, b, h1 _ _ _ c⟩
  | addAck p h' => obtain ⟨X, q, n, a, b, c⟩ := h; exact ⟨X, q, n, a, b, h2 _ _ c⟩

/-- State with the program and the messages in the background of `p` replaced. -/
def Ideal.setP (t : Ideal β) (p : Nat) (k : Prog β) (bg : List Snd) : Ideal β :=
  { t with prog := update t.prog p k, bg := update t.bg p bg }

theorem Ideal.setP_self {t : Ideal β} {p : Nat} {k : Prog β} {bg : List Snd} (h : t.prog p = k)
    (hb : t.bg p = bg) : t.setP p k bg = t := by
  subst h hb
  simp [Ideal.setP]

theorem Inv.local (hS : Sep S) {σ : Sys β} {t : Ideal β} (hi : Inv S σ t) {p : Nat} {P : Proc β}
    {net : List Item} (h1 : P.pc ≠ .dead) (h1' : Uses S p P.pc.abs) (h1b : ∀ m ∈ P.bg, m.OK S p)
    (h2 : ∀ X q, Ends S X q p ∨ Ends S X p q → uses (P.flows (hd X 0)) + pend (σ.proc p).pc X
      = uses ((σ.proc p).flows (hd X 0)) + pend P.pc X)
    (h3 : ∀ m q h att k, P.pc = .getting m q h att k →
      h = hd m.chan (t.rd m.chan) ∧ Ends S m.chan q p)
    (h4 : ∀ q h k, P.pc = .syncing q h k →
      ∃ X n, Ends S X p q ∧ h = hd X n ∧ n < (t.sent X).length)
    (h5 : ∀ h, P.outbox.look h = σ.out p h ∨
      (∃ b, σ.out p h = some (some b) ∧ P.outbox.look h = some none))
    (h6 : ∀ h, P.inbox.look h = σ.inb p h ∨
      (σ.inb p h = none ∧ ∃ X n q b, Ends S X q p ∧ h = hd X n ∧ (t.sent X)[n]? = some b ∧
        P.inbox.look h = some (some b)))
    (h7 : ∀ x ∈ net, ItemOK S t.sent x) :
    Inv S ⟨update σ.proc p P, net⟩ (t.setP p P.pc.abs P.bg) := by
  constructor
  · intro q
    by_cases hq : q = p
    · subst hq
      simpa [Ideal.setP] using h1
    · simpa [Ideal.setP, hq] using hi.pc q
  · intro q
    by_cases hq : q = p
    · subst hq
      simp [Ideal.setP]
    · simpa [Ideal.setP, hq] using hi.bg q
  · intro q
    by_cases hq : q = p
    · subst hq
      simpa [Ideal.setP] using h1'
    · simpa [Ideal.setP, hq] using hi.use q
  · intro q
    by_cases hq : q = p
    · subst hq
      simpa [Ideal.setP] using h1b
    · simpa [Ideal.setP, hq] using hi.useB q
  · intro X A Q hX
    by_cases hq : A = p
    · subst hq
      have h := h2 X Q (Or.inr hX)
      have z1 : pend (σ.proc A).pc X = 0 := by
        by_contra hz
        obtain ⟨q, hq⟩ := pend_ends (by rw [← (hi.pc A).2]; exact hi.use A) hz
        exact hX.proc_ne hS (hX.det hq).2.symm
      have z2 : pend P.pc X = 0 := by
        by_contra hz
        obtain ⟨q, hq⟩ := pend_ends h1' hz
        exact hX.proc_ne hS (hX.det hq).2.symm
      have := hi.fS X _ _ hX
      simp only [update_self, Ideal.setP]
      omega
    · simpa [Ideal.setP, hq] using hi.fS X _ _ hX
  · intro X A Q hX
    by_cases hq : Q = p
    · subst hq
      have h := h2 X A (Or.inl hX)
      have := hi.fR X _ _ hX
      simp only [update_self, Ideal.setP]
      omega
    · simpa [Ideal.setP, hq] using hi.fR X _ _ hX
  · intro q m a h att k hp
    by_cases hq : q = p
    · subst hq
      simp only [update_self] at hp
      exact h3 _ _ _ _ _ hp
    · simp only [update_of_ne hq] at hp
      exact hi.get _ _ _ _ _ _ hp
  · intro q a h k hp
    by_cases hq : q = p
    · subst hq
      simp only [update_self] at hp
      exact h4 _ _ _ hp
    · simp only [update_of_ne hq] at hp
      exact hi.syn _ _ _ _ hp
  · intro X A Q n hX
    have := hi.out X _ _ n hX
    by_cases hq : A = p
    · subst hq
      simp only [Sys.out, update_self, Ideal.setP] at this ⊢
      rcases h5 (hd X n) with h | ⟨b, e1, e2⟩
      · rw [h]
        exact this
      · simp only [Sys.out] at e1
        rw [e2]
        rw [e1] at this
        refine ⟨?_, by simp⟩
        simpa using this.1
    · simpa [Sys.out, Ideal.setP, hq] using this
  · intro X A Q n hX
    have := hi.inb X _ _ n hX
    by_cases hq : Q = p
    · subst hq
      simp only [Sys.inb, update_self, Ideal.setP] at this ⊢
      rcases h6 (hd X n) with h | ⟨e1, Y, n', q, b, hY, eh, hb, e2⟩
      · rw [h]
        exact this
      · obtain ⟨rfl, rfl⟩ := hX.uniq hS hY eh (by simp)
        rw [e2]
        simp only [Sys.inb] at e1
        refine ⟨by simp, fun _ => (List.getElem?_eq_some_iff.mp hb).1, by simp, ?_⟩
        intro b' hb'
        simp only [Option.some.injEq] at hb'
        rw [hb, hb']
    · simpa [Sys.inb, Ideal.setP, hq] using this
  · exact h7

/-! ### sending -/

theorem Inv.put (hS : Sep S) {σ : Sys β} {t : Ideal β} (hi : Inv S σ t) {p q : Nat} {m : Snd}
    (hm : m.OK S p) (hq : Ends S m.chan p q) {pc : Pc β} {bg : List Snd} {bk : Bool}
    {net : List Item} (h1 : pc ≠ .dead) (h1' : Uses S p pc.abs) (h1b : ∀ m ∈ bg, m.OK S p)
    (h2 : ∀ X, pend pc X = pend (σ.proc p).pc X)
    (h3 : ∀ m q h att k, pc = .getting m q h att k → (σ.proc p).pc = .getting m q h att k)
    (h4 : ∀ q' h k, pc = .syncing q' h k →
      (q' = q ∧ h = ((σ.proc p).put m).2) ∨ (σ.proc p).pc = .syncing q' h k)
    (h7 : ∀ x ∈ net, x = .tryTask p q ((σ.proc p).put m).2 ∨ x ∈ σ.net) :
    ((σ.proc p).put m).2 = hd m.chan (t.sent m.chan).length ∧
    Inv S ⟨update σ.proc p { ((σ.proc p).put m).1 with pc := pc, bg := bg, bgBlk := bk }, net⟩
      { (t.setP p pc.abs bg) with
        sent := update t.sent m.chan (t.sent m.chan ++ [m.body]) } := by
  have hh : ((σ.proc p).put m).2 = hd m.chan (t.sent m.chan).length := by
    simp only [Proc.put, header_fst]
    rw [← hi.fS _ _ _ hq]
    rfl
  have hfl : ∀ k, uses ((((σ.proc p).put m).1).flows k)
      = if k = hd m.chan 0 then uses ((σ.proc p).flows k) + 1 else uses ((σ.proc p).flows k) := by
    intro k
    simp only [Proc.put, header_snd]
    rfl
  have hout : ∀ h, (((σ.proc p).put m).1).outbox.look h =
      if h = hd m.chan (t.sent m.chan).length then some (some m.body) else σ.out p h := by
    intro h
    have hn : (σ.proc p).outbox.look (hd m.chan (t.sent m.chan).length) = none := by
      have := (hi.out _ _ _ (t.sent m.chan).length hq).1
      simpa [Sys.out] using this
    have e : (((σ.proc p).put m).1).outbox
        = (σ.proc p).outbox.add ((σ.proc p).put m).2 m.body := rfl
    rw [e, hh, Box.look_add]
    simp only [hn, and_true]
    rfl
  have hmono : ∀ X, ∃ l, update t.sent m.chan (t.sent m.chan ++ [m.body]) X = t.sent X ++ l := by
    intro X
    by_cases hX : X = m.chan
    · subst hX
      exact ⟨[m.body], by simp⟩
    · exact ⟨[], by simp [hX]⟩
  have hlt : ∀ X n, n < (t.sent X).length →
      n < (update t.sent m.chan (t.sent m.chan ++ [m.body]) X).length := by
    intro X n hn
    obtain ⟨l, hl⟩ := hmono X
    rw [hl, List.length_append]
    omega
  have hge : ∀ (X : Chan) (n : Nat) (b : Body), (t.sent X)[n]? = some b →
      (update t.sent m.chan (t.sent m.chan ++ [m.body]) X)[n]? = some b := by
    intro X n b hb
    obtain ⟨l, hl⟩ := hmono X
    rw [hl, List.getElem?_append_left (List.getElem?_eq_some_iff.mp hb).1]
    exact hb
  refine ⟨hh, ?_⟩
  constructor
  · intro q'
    by_cases hp : q' = p
    · subst hp
      simpa [Ideal.setP] using h1
    · simpa [Ideal.setP, hp] using hi.pc q'
  · intro q'
    by_cases hp : q' = p
    · subst hp
      simp [Ideal.setP]
    · simpa [Ideal.setP, hp] using hi.bg q'
  · intro q'
    by_cases hp : q' = p
    · subst hp
      simpa [Ideal.setP] using h1'
    · simpa [Ideal.setP, hp] using hi.use q'
  · intro q'
    by_cases hp : q' = p
    · subst hp
      simpa [Ideal.setP] using h1b
    · simpa [Ideal.setP, hp] using hi.useB q'
  · intro X A Q hX
    have hf := hi.fS X _ _ hX
    by_cases hp : A = p
    · subst hp
      simp only [update_self, hfl]
      by_cases hx : X = m.chan
      · subst hx
        simp [hf]
      · rw [if_neg, update_of_ne hx, hf]
        intro e
        exact hx (hX.uniq hS hq e (by simp)).1
    · have hx : X ≠ m.chan := by
        rintro rfl
        exact hp (hX.det hq).1
      simpa [Ideal.setP, hp, hx] using hf
  · intro X A Q hX
    have hf := hi.fR X _ _ hX
    by_cases hp : Q = p
    · subst hp
      have hx : hd X 0 ≠ hd m.chan 0 := by
        intro e
        obtain ⟨rfl, _⟩ := hX.uniq hS hq e (by simp)
        exact hX.proc_ne hS ((hX.det hq).1)
      simp only [update_self, hfl, if_neg hx, Ideal.setP, h2]
      exact hf
    · simpa [Ideal.setP, hp] using hf
  · intro q' m' a h att k hpc
    by_cases hp : q' = p
    · subst hp
      simp only [update_self] at hpc
      exact hi.get _ _ _ _ _ _ (h3 _ _ _ _ _ hpc)
    · simp only [update_of_ne hp] at hpc
      exact hi.get _ _ _ _ _ _ hpc
  · intro q' a h k hpc
    by_cases hp : q' = p
    · subst hp
      simp only [update_self] at hpc
      rcases h4 _ _ _ hpc with ⟨rfl, rfl⟩ | h4
      · exact ⟨m.chan, _, hq, hh, by simp⟩
      · obtain ⟨X, n, e1, e2, e3⟩ := hi.syn _ _ _ _ h4
        exact ⟨X, n, e1, e2, hlt _ _ e3⟩
    · simp only [update_of_ne hp] at hpc
      obtain ⟨X, n, e1, e2, e3⟩ := hi.syn _ _ _ _ hpc
      exact ⟨X, n, e1, e2, hlt _ _ e3⟩
  · intro X A Q n hX
    have := hi.out X _ _ n hX
    by_cases hp : A = p
    · subst hp
      simp only [Sys.out, update_self, hout]
      by_cases hx : X = m.chan
      · subst hx
        by_cases hn : n = (t.sent m.chan).length
        · subst hn
          simp
        · rw [if_neg (by intro e; exact hn (hX.uniq hS hq e (by simp)).2)]
          refine ⟨?_, fun b hb => hge _ _ _ (this.2 b hb)⟩
          rw [← show n < _ ↔ (σ.proc A).outbox.look (hd m.chan n) ≠ none from this.1]
          simp
          omega
      · rw [if_neg (by intro e; exact hx (hX.uniq hS hq e (by simp)).1)]
        simpa [hx, Sys.out] using this
    · have hx : X ≠ m.chan := by
        rintro rfl
        exact hp (hX.det hq).1
      simpa [Sys.out, hp, hx] using this
  · intro X A Q n hX
    have := hi.inb X _ _ n hX
    have e : Sys.inb ⟨update σ.proc p { ((σ.proc p).put m).1 with pc := pc, bg := bg, bgBlk := bk },
        net⟩ Q (hd X n) = σ.inb Q (hd X n) := by
      by_cases hp : Q = p
      · subst hp
        simp [Sys.inb, Proc.put]
      · simp [Sys.inb, hp]
    rw [e]
    exact ⟨this.1, fun h => hlt _ _ (this.2.1 h), this.2.2.1, fun b hb => hge _ _ _ (this.2.2.2 b hb)⟩
  · intro x hx
    rcases h7 x hx with rfl | hx
    · exact ⟨m.chan, _, hq, hh, by simp⟩
    · exact (hi.net x hx).mono hmono

/-! ### receiving -/

theorem Inv.hit (hS : Sep S) {σ : Sys β} {t : Ideal β} (hi : Inv S σ t) {p q att : Nat} {m : Rcv}
    {h : Hd} {k : Body → Prog β} {b : Body} (hpc : (σ.proc p).pc = .getting m q h att k)
    (hb : (σ.proc p).inbox.get h = some b) :
    (t.sent m.chan)[t.rd m.chan]? = some b ∧
    Inv S (σ.setP p { σ.proc p with pc := .run (k b), inbox := (σ.proc p).inbox.discard h })
      { t with prog := update t.prog p (k b)
               rd := update t.rd m.chan (t.rd m.chan + 1) } := by
  obtain ⟨rfl, hq⟩ := hi.get _ _ _ _ _ _ hpc
  have hu := hi.use p
  rw [(hi.pc p).2, hpc] at hu
  have huk : Uses S p (k b) := by
    cases hu with
    | recv _ hk => exact hk b
  have hl : σ.inb p (hd m.chan (t.rd m.chan)) = some (some b) := Box.get_some.mp hb
  have hs : (t.sent m.chan)[t.rd m.chan]? = some b := (hi.inb _ _ _ _ hq).2.2.2 b hl
  refine ⟨hs, ?_⟩
  constructor
  · intro q'
    by_cases hp : q' = p
    · subst hp
      simp [Sys.setP, Pc.abs]
    · simpa [Sys.setP, hp] using hi.pc q'
  · intro q'
    by_cases hp : q' = p
    · subst hp
      simp [Sys.setP, hi.bg]
    · simpa [Sys.setP, hp] using hi.bg q'
  · intro q'
    by_cases hp : q' = p
    · subst hp
      simpa using huk
    · simpa [hp] using hi.use q'
  · exact hi.useB
  · intro X A Q hX
    have hf := hi.fS X _ _ hX
    by_cases hp : A = p
    · subst hp
      simpa [Sys.setP] using hf
    · simpa [Sys.setP, hp] using hf
  · intro X A Q hX
    have hf := hi.fR X _ _ hX
    by_cases hp : Q = p
    · subst hp
      rw [hpc] at hf
      by_cases hx : X = m.chan
      · subst hx
        simp only [pend, if_true] at hf
        simpa [Sys.setP, pend] using hf
      · simp only [pend, if_neg hx] at hf
        simpa [Sys.setP, pend, hx] using hf
    · have hx : X ≠ m.chan := by
        rintro rfl
        exact hp (hX.det hq).2
      simpa [Sys.setP, hp, hx] using hf
  · intro q' m' a h att k' hpc'
    by_cases hp : q' = p
    · subst hp
      simp [Sys.setP] at hpc'
    · simp only [Sys.setP, update_of_ne hp] at hpc'
      obtain ⟨e1, e2⟩ := hi.get _ _ _ _ _ _ hpc'
      have hx : m'.chan ≠ m.chan := by
        intro e
        rw [e] at e2
        exact hp (e2.det hq).2
      exact ⟨by simp [hx, e1], e2⟩
  · intro q' a h k' hpc'
    by_cases hp : q' = p
    · subst hp
      simp [Sys.setP] at hpc'
    · simp only [Sys.setP, update_of_ne hp] at hpc'
      exact hi.syn _ _ _ _ hpc'
  · intro X A Q n hX
    have := hi.out X _ _ n hX
    by_cases hp : A = p
    · subst hp
      simpa [Sys.out, Sys.setP] using this
    · simpa [Sys.out, Sys.setP, hp] using this
  · intro X A Q n hX
    have := hi.inb X _ _ n hX
    by_cases hp : Q = p
    · subst hp
      simp only [Sys.inb, Sys.setP, update_self]
      by_cases hx : X = m.chan
      · subst hx
        simp only [update_self]
        rcases Box.look_discard (σ.proc Q).inbox (hd m.chan (t.rd m.chan)) (hd m.chan n)
          with e | ⟨e, v, e1, e2⟩
        · rw [e]
          refine ⟨fun hn => ?_, this.2.1, fun h => ?_, this.2.2.2⟩
          · by_cases hn' : n = t.rd m.chan
            · subst hn'
              rw [show (σ.proc Q).inbox.look _ = _ from hl]
              simp
            · exact this.1 (by omega)
          · have := this.2.2.1 h
            omega
        · obtain ⟨_, rfl⟩ := hX.uniq hS hX e (by simp)
          rw [e2]
          exact ⟨by simp, fun _ => (List.getElem?_eq_some_iff.mp hs).1, by simp, by simp⟩
      · simp only [update_of_ne hx]
        rcases Box.look_discard (σ.proc Q).inbox (hd m.chan (t.rd m.chan)) (hd X n)
          with e | ⟨e, v, e1, e2⟩
        · rw [e]
          exact this
        · exact absurd (hX.uniq hS hq e (by simp)).1 hx
    · have hx : X ≠ m.chan := by
        rintro rfl
        exact hp (hX.det hq).2
      simpa [Sys.inb, Sys.setP, hp, hx] using this
  · exact hi.net

end Laik.Mm
