import Verif.Model.MiniMpiRun
/-!
# No message is lost in the TCP backend based on GLib

Which messages are still kept somewhere, and which entries of outboxes will go.
-/

namespace Laik.Mm

open Function

variable {β : Type} {S : Comm → Prop}

/-- Messages sent so far on `X` from `P`. -/
def Sys.len (σ : Sys β) (X : Chan) (P : Nat) : Nat := uses ((σ.proc P).flows (hd X 0))

/-- Messages received so far on `X` by `Q`. -/
def Sys.rdn (σ : Sys β) (X : Chan) (Q : Nat) : Nat :=
  uses ((σ.proc Q).flows (hd X 0)) - pend (σ.proc Q).pc X

theorem Inv.len {σ : Sys β} {t : Ideal β} (hi : Inv S σ t) {X : Chan} {P Q : Nat}
    (hX : Ends S X P Q) : σ.len X P = (t.sent X).length := hi.fS _ _ _ hX

theorem Inv.rdn {σ : Sys β} {t : Ideal β} (hi : Inv S σ t) {X : Chan} {P Q : Nat}
    (hX : Ends S X P Q) : σ.rdn X Q = t.rd X := by
  rw [Sys.rdn, hi.fR _ _ _ hX]
  omega

/-- An answer with message `h` is on its way to `q`. -/
def Sys.rep (σ : Sys β) (q : Nat) (h : Hd) : Prop := ∃ b, Item.getRep q h b ∈ σ.net

/-- Nothing lost: a message sent but not received is in the inbox of the receiver, in
the outbox of the sender, or on its way. -/
structure Dlv (S : Comm → Prop) (σ : Sys β) : Prop where
  kept : ∀ X P Q n, Ends S X P Q → σ.rdn X Q ≤ n → n < σ.len X P →
    (∃ b, σ.inb Q (hd X n) = some (some b)) ∨ (∃ b, σ.out P (hd X n) = some (some b)) ∨
      σ.rep Q (hd X n)
  disc : ∀ X P Q n, Ends S X P Q →
    Item.disc P (hd X n) ∈ σ.net ∨ Item.addAck P (hd X n) ∈ σ.net →
    σ.inb Q (hd X n) ≠ none ∨ σ.rep Q (hd X n)

/-- A present entry of an inbox which is not yet received has a body. -/
theorem Inv.unread {σ : Sys β} {t : Ideal β} (hi : Inv S σ t) {X : Chan} {P Q n : Nat}
    (hX : Ends S X P Q) (hn : σ.rdn X Q ≤ n) (h : σ.inb Q (hd X n) ≠ none) :
    ∃ b, σ.inb Q (hd X n) = some (some b) := by
  rw [hi.rdn hX] at hn
  obtain ⟨v, hv⟩ := Option.ne_none_iff_exists'.mp h
  cases v with
  | some b => exact ⟨b, hv⟩
  | none =>
    have := (hi.inb _ _ _ n hX).2.2.1 hv
    omega

theorem Dlv.local {σ τ : Sys β} {t : Ideal β} (hi : Inv S σ t) (hd' : Dlv S σ)
    (hl : ∀ X P Q, Ends S X P Q → τ.len X P = σ.len X P ∧ τ.rdn X Q = σ.rdn X Q)
    (hin : ∀ q h, τ.inb q h = σ.inb q h ∨ ∃ b, τ.inb q h = some (some b))
    (hout : ∀ p h, τ.out p h = σ.out p h ∨ Item.disc p h ∈ σ.net ∨ Item.addAck p h ∈ σ.net)
    (hrep : ∀ q h, σ.rep q h → τ.rep q h ∨ ∃ b, τ.inb q h = some (some b) ∨ τ.inb q h ≠ none)
    (hnew : ∀ X P Q n, Ends S X P Q →
      Item.disc P (hd X n) ∈ τ.net ∨ Item.addAck P (hd X n) ∈ τ.net →
      (Item.disc P (hd X n) ∈ σ.net ∨ Item.addAck P (hd X n) ∈ σ.net) ∨
      τ.inb Q (hd X n) ≠ none ∨ τ.rep Q (hd X n)) :
    Dlv S τ := by
  have up : ∀ X P Q n, Ends S X P Q → σ.rdn X Q ≤ n →
      σ.inb Q (hd X n) ≠ none ∨ σ.rep Q (hd X n) →
      (∃ b, τ.inb Q (hd X n) = some (some b)) ∨ τ.rep Q (hd X n) := by
    intro X P Q n hX hn h
    rcases h with h | h
    · obtain ⟨b, hb⟩ := hi.unread hX hn h
      rcases hin Q (hd X n) with e | e
      · exact Or.inl ⟨b, by rw [e, hb]⟩
      · exact Or.inl e
    · rcases hrep _ _ h with h | ⟨b, h | h⟩
      · exact Or.inr h
      · exact Or.inl ⟨b, h⟩
      · rcases hin Q (hd X n) with e | e
        · rw [e] at h
          obtain ⟨b, hb⟩ := hi.unread hX hn h
          exact Or.inl ⟨b, by rw [e, hb]⟩
        · exact Or.inl e
  constructor
  · intro X P Q n hX hn hm
    rw [(hl X P Q hX).2] at hn
    rw [(hl X P Q hX).1] at hm
    rcases hd'.kept X P Q n hX hn hm with h | ⟨b, h⟩ | h
    · obtain ⟨b, h⟩ := h
      rcases up X P Q n hX hn (Or.inl (by simp [h])) with h | h
      · exact Or.inl h
      · exact Or.inr (Or.inr h)
    · rcases hout P (hd X n) with e | e
      · exact Or.inr (Or.inl ⟨b, by rw [e, h]⟩)
      · rcases up X P Q n hX hn (hd'.disc X P Q n hX e) with h | h
        · exact Or.inl h
        · exact Or.inr (Or.inr h)
    · rcases up X P Q n hX hn (Or.inr h) with h | h
      · exact Or.inl h
      · exact Or.inr (Or.inr h)
  · intro X P Q n hX h
    rcases hnew X P Q n hX h with h | h
    · rcases hd'.disc X P Q n hX h with h | h
      · rcases hin Q (hd X n) with e | ⟨b, e⟩
        · rw [e]
          exact Or.inl h
        · rw [e]
          simp
      · rcases hrep _ _ h with h | ⟨b, h | h⟩
        · exact Or.inr h
        · rw [h]
          simp
        · exact Or.inl h
    · exact h

theorem rep_erase {σ τ : Sys β} {y : Item} (hy : ∀ q h b, y ≠ .getRep q h b)
    (hn : ∀ x ∈ σ.net.erase y, x ∈ τ.net) {q : Nat} {h : Hd} (hr : σ.rep q h) : τ.rep q h := by
  obtain ⟨b, hb⟩ := hr
  exact ⟨b, hn _ ((List.mem_erase_of_ne (fun e => hy q h b e.symm)).mpr hb)⟩

theorem Sys.rep_mono {σ τ : Sys β} (hn : ∀ x ∈ σ.net, x ∈ τ.net) {q : Nat} {h : Hd}
    (hr : σ.rep q h) : τ.rep q h := by
  obtain ⟨b, hb⟩ := hr
  exact ⟨b, hn _ hb⟩

/-- What stays the same if process `p` is replaced. -/
theorem upd_same {σ : Sys β} {p : Nat} {P : Proc β} {net : List Item}
    (hf : P.flows = (σ.proc p).flows) (hp : ∀ X, pend P.pc X = pend (σ.proc p).pc X) (X : Chan)
    (q : Nat) : Sys.len ⟨update σ.proc p P, net⟩ X q = σ.len X q ∧
      Sys.rdn ⟨update σ.proc p P, net⟩ X q = σ.rdn X q := by
  by_cases hq : q = p
  · subst hq
    simp [Sys.len, Sys.rdn, hf, hp]
  · simp [Sys.len, Sys.rdn, hq]

theorem upd_inb {σ : Sys β} {p : Nat} {P : Proc β} {net : List Item}
    (hb : P.inbox = (σ.proc p).inbox) (q : Nat) (h : Hd) :
    Sys.inb ⟨update σ.proc p P, net⟩ q h = σ.inb q h := by
  by_cases hq : q = p
  · subst hq
    simp [Sys.inb, hb]
  · simp [Sys.inb, hq]

theorem upd_out {σ : Sys β} {p : Nat} {P : Proc β} {net : List Item}
    (hb : P.outbox = (σ.proc p).outbox) (q : Nat) (h : Hd) :
    Sys.out ⟨update σ.proc p P, net⟩ q h = σ.out q h := by
  by_cases hq : q = p
  · subst hq
    simp [Sys.out, hb]
  · simp [Sys.out, hq]

/-- Process `p` gets an entry in its inbox. -/
theorem upd_add {σ : Sys β} {p : Nat} {B : Box} {h0 : Hd} {b : Body} {net : List Item}
    (hB : ∀ h', B.look h' = σ.inb p h' ∨
      (h' = h0 ∧ σ.inb p h' = none ∧ B.look h' = some (some b))) (q : Nat) (h : Hd) :
    Sys.inb ⟨update σ.proc p { σ.proc p with inbox := B }, net⟩ q h = σ.inb q h ∨
      (q = p ∧ h = h0 ∧ σ.inb q h = none ∧
        Sys.inb ⟨update σ.proc p { σ.proc p with inbox := B }, net⟩ q h = some (some b)) := by
  by_cases hq : q = p
  · subst hq
    rcases hB h with e | ⟨e1, e2, e3⟩
    · exact Or.inl (by simpa [Sys.inb] using e)
    · exact Or.inr ⟨rfl, e1, e2, by simpa [Sys.inb] using e3⟩
  · exact Or.inl (by simp [Sys.inb, hq])

/-- Boxes and counters as they are, only items which are no answers leave. -/
theorem Dlv.net {σ τ : Sys β} {t : Ideal β} (hi : Inv S σ t) (hd' : Dlv S σ)
    (hp : τ.proc = σ.proc) (hr : ∀ q h, σ.rep q h → τ.rep q h)
    (hnew : ∀ X P Q n, Ends S X P Q →
      Item.disc P (hd X n) ∈ τ.net ∨ Item.addAck P (hd X n) ∈ τ.net →
      (Item.disc P (hd X n) ∈ σ.net ∨ Item.addAck P (hd X n) ∈ σ.net) ∨
      τ.inb Q (hd X n) ≠ none ∨ τ.rep Q (hd X n)) : Dlv S τ := by
  refine Dlv.local hi hd' (fun X P Q _ => ?_) (fun q h => Or.inl ?_) (fun p h => Or.inl ?_)
    (fun q h hr' => Or.inl (hr q h hr')) hnew
  · simp [Sys.len, Sys.rdn, hp]
  · simp [Sys.inb, hp]
  · simp [Sys.out, hp]

/-- Only the program counter (or `bg`) of `p` and irrelevant items change. -/
theorem Dlv.pc {σ : Sys β} {t : Ideal β} (hi : Inv S σ t) (hd' : Dlv S σ) {p : Nat} {P : Proc β}
    {net : List Item} (hf : P.flows = (σ.proc p).flows)
    (hp : ∀ X, pend P.pc X = pend (σ.proc p).pc X) (hib : P.inbox = (σ.proc p).inbox)
    (hob : P.outbox = (σ.proc p).outbox) (hn : ∀ x ∈ σ.net, x ∈ net)
    (hn' : ∀ x ∈ net, x ∈ σ.net ∨ ∃ a b h, x = .getReq a b h ∨ x = .tryTask a b h) :
    Dlv S ⟨update σ.proc p P, net⟩ := by
  refine Dlv.local hi hd' (fun X P Q _ => ⟨(upd_same hf hp X _).1, (upd_same hf hp X _).2⟩)
    (fun q h => Or.inl (upd_inb hib q h)) (fun q h => Or.inl (upd_out hob q h))
    (fun q h hr => Or.inl (Sys.rep_mono hn hr)) (fun X P Q n _ h => Or.inl ?_)
  rcases h with h | h
  · rcases hn' _ h with h | ⟨_, _, _, h | h⟩
    · exact Or.inl h
    · cases h
    · cases h
  · rcases hn' _ h with h | ⟨_, _, _, h | h⟩
    · exact Or.inr h
    · cases h
    · cases h

/-- Sending keeps the message in the outbox. -/
theorem Dlv.put (hS : Sep S) {σ : Sys β} {t : Ideal β} (hi : Inv S σ t) (hd' : Dlv S σ) {p q : Nat}
    {m : Snd} (hq : Ends S m.chan p q) {pc : Pc β} {bg : List Snd} {bk : Bool} {net : List Item}
    (h2 : ∀ X, pend pc X = pend (σ.proc p).pc X) (hn : ∀ x ∈ σ.net, x ∈ net)
    (hn' : ∀ x ∈ net, x ∈ σ.net ∨ ∃ a b h, x = .getReq a b h ∨ x = .tryTask a b h) :
    Dlv S ⟨update σ.proc p { ((σ.proc p).put m).1 with pc := pc, bg := bg, bgBlk := bk }, net⟩ := by
  have hh : ((σ.proc p).put m).2 = hd m.chan (t.sent m.chan).length := by
    simp only [Proc.put, header_fst]
    rw [← hi.fS _ _ _ hq]
    rfl
  have hfl : ∀ k, uses ((((σ.proc p).put m).1).flows k)
      = if k = hd m.chan 0 then uses ((σ.proc p).flows k) + 1 else uses ((σ.proc p).flows k) := by
    intro k
    simp only [Proc.put, header_snd]
    rfl
  have hout : ∀ h, (((σ.proc p).put m).1).outbox.look h =
      if h = hd m.chan (t.sent m.chan).length then some (some m.body) else σ.out p h := by
    intro h
    have hn : (σ.proc p).outbox.look (hd m.chan (t.sent m.chan).length) = none := by
      have := (hi.out _ _ _ (t.sent m.chan).length hq).1
      simpa [Sys.out] using this
    have e : (((σ.proc p).put m).1).outbox
        = (σ.proc p).outbox.add ((σ.proc p).put m).2 m.body := rfl
    rw [e, hh, Box.look_add]
    simp only [hn, and_true]
    rfl
  have hin : ∀ q' h, Sys.inb ⟨update σ.proc p
      { ((σ.proc p).put m).1 with pc := pc, bg := bg, bgBlk := bk }, net⟩ q' h = σ.inb q' h :=
    fun q' h => upd_inb (by rfl) q' h
  constructor
  · intro X P Q n hX hr hl
    have hr' : σ.rdn X Q ≤ n := by
      by_cases hp : Q = p
      · subst hp
        have hx : hd X 0 ≠ hd m.chan 0 := by
          intro e
          obtain ⟨rfl, _⟩ := hX.uniq hS hq e (by simp)
          exact hX.proc_ne hS ((hX.det hq).1)
        simpa [Sys.rdn, hfl, hx, h2] using hr
      · simpa [Sys.rdn, hp] using hr
    by_cases hc : X = m.chan ∧ n = (t.sent m.chan).length
    · obtain ⟨rfl, rfl⟩ := hc
      obtain rfl := (hX.det hq).1
      exact Or.inr (Or.inl ⟨m.body, by simp [Sys.out, hout]⟩)
    · have hl' : n < σ.len X P := by
        by_cases hp : P = p
        · subst hp
          by_cases hx : X = m.chan
          · subst hx
            simp only [Sys.len, update_self, hfl, if_true] at hl
            have e := hi.fS _ _ _ hq
            have : n ≠ (t.sent m.chan).length := fun e => hc ⟨rfl, e⟩
            rw [Sys.len]
            omega
          · have hx' : hd X 0 ≠ hd m.chan 0 := fun e => hx (hX.uniq hS hq e (by simp)).1
            simpa [Sys.len, hfl, hx'] using hl
        · simpa [Sys.len, hp] using hl
      rcases hd'.kept X P Q n hX hr' hl' with ⟨b, h⟩ | ⟨b, h⟩ | h
      · exact Or.inl ⟨b, by rw [hin]; exact h⟩
      · refine Or.inr (Or.inl ⟨b, ?_⟩)
        by_cases hp : P = p
        · subst hp
          have hx' : hd X n ≠ hd m.chan (t.sent m.chan).length :=
            fun e => hc (hX.uniq hS hq e (by simp))
          simpa [Sys.out, hout, hx'] using h
        · simpa [Sys.out, hp] using h
      · exact Or.inr (Or.inr (Sys.rep_mono hn h))
  · intro X P Q n hX h
    rw [hin]
    have h' : Item.disc P (hd X n) ∈ σ.net ∨ Item.addAck P (hd X n) ∈ σ.net := by
      rcases h with h | h
      · rcases hn' _ h with h | ⟨_, _, _, h | h⟩
        · exact Or.inl h
        · cases h
        · cases h
      · rcases hn' _ h with h | ⟨_, _, _, h | h⟩
        · exact Or.inr h
        · cases h
        · cases h
    rcases hd'.disc X P Q n hX h' with h | h
    · exact Or.inl h
    · exact Or.inr (Sys.rep_mono hn h)

theorem Dlv.hit (hS : Sep S) {σ : Sys β} {t : Ideal β} (hi : Inv S σ t) (hd' : Dlv S σ)
    {p q att : Nat} {m : Rcv} {h : Hd} {k : Body → Prog β} {b : Body}
    (hpc : (σ.proc p).pc = .getting m q h att k) :
    Dlv S (σ.setP p { σ.proc p with pc := .run (k b), inbox := (σ.proc p).inbox.discard h }) := by
  obtain ⟨rfl, hq⟩ := hi.get _ _ _ _ _ _ hpc
  have hrd := hi.fR _ _ _ hq
  rw [hpc] at hrd
  simp only [pend, if_true] at hrd
  constructor
  · intro X P Q n hX hr hl
    have hl' : n < σ.len X P := by
      by_cases hp : P = p
      · subst hp
        simpa [Sys.len, Sys.setP] using hl
      · simpa [Sys.len, Sys.setP, hp] using hl
    have hr' : σ.rdn X Q ≤ n ∧ ¬ (X = m.chan ∧ n = t.rd m.chan) := by
      by_cases hp : Q = p
      · subst hp
        simp only [Sys.rdn, Sys.setP, update_self, pend] at hr
        simp only [Sys.rdn, hpc, pend]
        constructor
        · omega
        · rintro ⟨rfl, rfl⟩
          omega
      · refine ⟨by simpa [Sys.rdn, Sys.setP, hp] using hr, ?_⟩
        rintro ⟨rfl, _⟩
        exact hp (hX.det hq).2
    rcases hd'.kept X P Q n hX hr'.1 hl' with ⟨b', h⟩ | ⟨b', h⟩ | h
    · refine Or.inl ⟨b', ?_⟩
      by_cases hp : Q = p
      · subst hp
        simp only [Sys.inb, Sys.setP, update_self]
        rcases Box.look_discard (σ.proc Q).inbox (hd m.chan (t.rd m.chan)) (hd X n)
          with e | ⟨e, _⟩
        · rw [e]
          exact h
        · exact absurd (hX.uniq hS hq e (by simp)) hr'.2
      · simpa [Sys.inb, Sys.setP, hp] using h
    · refine Or.inr (Or.inl ⟨b', ?_⟩)
      by_cases hp : P = p
      · subst hp
        simpa [Sys.out, Sys.setP] using h
      · simpa [Sys.out, Sys.setP, hp] using h
    · exact Or.inr (Or.inr h)
  · intro X P Q n hX h
    rcases hd'.disc X P Q n hX h with h1 | h1
    · left
      by_cases hp : Q = p
      · subst hp
        simp only [Sys.inb, Sys.setP, update_self]
        rcases Box.look_discard (σ.proc Q).inbox (hd m.chan (t.rd m.chan)) (hd X n)
          with e | ⟨_, v, _, e⟩
        · rw [e]
          exact h1
        · rw [e]
          simp
      · simpa [Sys.inb, Sys.setP, hp] using h1
    · exact Or.inr h1

/-- If no answer is lost, nothing is lost. -/
theorem Dlv.step (hS : Sep S) {A : Nat} {L : Item → Prop} (hL : ∀ q h b, ¬ L (.getRep q h b))
    {σ τ : Sys β} {t : Ideal β} (hi : Inv S σ t) (hd' : Dlv S σ) (h : Step A L σ τ) : Dlv S τ := by
  have upr : ∀ {p k}, (σ.proc p).pc = .run k → Uses S p k := by
    intro p k hp
    have h1 := (hi.pc p).2
    rw [hp] at h1
    have h1 : t.prog p = k := h1
    exact h1 ▸ hi.use p
  have same : ∀ x ∈ σ.net, x ∈ σ.net ∨ ∃ a b h, x = .getReq a b h ∨ x = .tryTask a b h :=
    fun x hx => Or.inl hx
  have old : ∀ {y : Item} {X P n}, Item.disc P (hd X n) ∈ σ.net.erase y ∨
      Item.addAck P (hd X n) ∈ σ.net.erase y →
      Item.disc P (hd X n) ∈ σ.net ∨ Item.addAck P (hd X n) ∈ σ.net := by
    intro y X P n h
    rcases h with h | h
    · exact Or.inl (List.mem_of_mem_erase h)
    · exact Or.inr (List.mem_of_mem_erase h)
  cases h with
  | push p q m k hp hq =>
    cases upr hp with
    | send hm huk =>
      obtain ⟨q', e, hE⟩ := hm.ends
      obtain rfl : q' = q := by simpa [hq] using e.symm
      exact hd'.put hS hi hE (pc := .blocked k) (bg := (σ.proc p).bg) (bk := (σ.proc p).bgBlk)
        (net := .tryTask p q' ((σ.proc p).put m).2 :: σ.net) (fun X => by rw [hp]; rfl)
        (fun x hx => by simp [hx]) (fun x hx => by
          rcases List.mem_cons.mp hx with rfl | hx
          · exact Or.inr ⟨_, _, _, Or.inr rfl⟩
          · exact Or.inl hx)
  | unblock p k hp hs =>
    exact hd'.pc hi rfl (fun X => by rw [hp]; rfl) rfl rfl (fun x hx => hx) same
  | sync p q m k hp hq =>
    cases upr hp with
    | ssend hm huk =>
      obtain ⟨q', e, hE⟩ := hm.ends
      obtain rfl : q' = q := by simpa [hq] using e.symm
      exact hd'.put hS hi hE (pc := .syncing q' ((σ.proc p).put m).2 k) (bg := (σ.proc p).bg)
        (bk := (σ.proc p).bgBlk) (net := σ.net) (fun X => by rw [hp]; rfl) (fun x hx => hx) same
  | addSend p q h k b hp hb =>
    exact hd'.net hi rfl (fun q h hr => Sys.rep_mono (fun x hx => by simp [hx]) hr)
      (fun X P Q n _ h => Or.inl (by simpa using h))
  | addRecv p q h b hx =>
    obtain ⟨X, n, hX, rfl, hb⟩ := hi.net _ hx
    refine Dlv.local hi hd' (fun Y P Q _ => ⟨(upd_same (by rfl) (fun _ => by rfl) Y _).1,
      (upd_same (by rfl) (fun _ => by rfl) Y _).2⟩)
      (fun q' h' => ?_) (fun p' h' => Or.inl (upd_out (by rfl) p' h'))
      (fun q' h' hr => Or.inl (rep_erase (y := .addMsg p q (hd X n) b) (by simp) (fun x hx => by simp [hx]) hr)) ?_
    · rcases upd_add (inb_add σ q (hd X n) b) q' h' with e | ⟨_, _, _, e⟩
      · exact Or.inl e
      · exact Or.inr ⟨b, e⟩
    · intro Y P Q n' hY h
      by_cases he : Item.addAck P (hd Y n') = Item.addAck p (hd X n)
      · simp only [Item.addAck.injEq] at he
        obtain ⟨rfl, he⟩ := he
        obtain ⟨rfl, rfl⟩ := hY.uniq hS hX he (by simp)
        obtain rfl := (hY.det hX).2
        right
        left
        simp only [Sys.inb, update_self]
        exact Box.add_in _ _ _
      · left
        refine old (y := .addMsg p q (hd X n) b) ?_
        rcases h with h | h
        · exact Or.inl (by simpa using h)
        · exact Or.inr ((List.mem_cons.mp h).resolve_left he)
  | addDone p q h k hp hx =>
    refine Dlv.local hi hd' (fun Y P Q _ => ⟨(upd_same (by rfl) (fun X => by simp only [hp, pend]) Y _).1,
      (upd_same (by rfl) (fun X => by simp only [hp, pend]) Y _).2⟩)
      (fun q' h' => Or.inl (upd_inb (by rfl) q' h')) (fun p' h' => ?_)
      (fun q' h' hr => Or.inl (rep_erase (y := .addAck p h) (by simp) (fun x hx => hx) hr))
      (fun X P Q n hX h => Or.inl (old h))
    by_cases hp' : p' = p
    · subst hp'
      rcases Box.look_discard (σ.proc p').outbox h h' with e | ⟨rfl, _⟩
      · left
        simpa [Sys.out] using e
      · exact Or.inr (Or.inr hx)
    · left
      simp [Sys.out, hp']
  | syncGone p q h k hp hb =>
    exact hd'.pc hi rfl (fun X => by rw [hp]; rfl) rfl rfl (fun x hx => hx) same
  | ask p q m k hp hq =>
    refine Dlv.local hi hd' (fun Y P Q hY => ?_)
      (fun q' h' => Or.inl (upd_inb (by rfl) q' h')) (fun q' h' => Or.inl (upd_out (by rfl) q' h'))
      (fun q' h' hr => Or.inl (Sys.rep_mono (fun x hx => hx) hr))
      (fun X P Q n hX h => Or.inl h)
    have hm := upr hp
    cases hm with
    | recv hm huk =>
    obtain ⟨q', e, hE⟩ := hm.ends
    have hf : ∀ k, uses ((((σ.proc p).ask m).1).flows k)
        = if k = hd m.chan 0 then uses ((σ.proc p).flows k) + 1 else uses ((σ.proc p).flows k) := by
      intro k
      simp only [Proc.ask, header_snd]
      rfl
    constructor
    · by_cases hP : P = p
      · subst hP
        have hx : hd Y 0 ≠ hd m.chan 0 := by
          intro e
          obtain ⟨rfl, _⟩ := hY.uniq hS hE e (by simp)
          exact hY.proc_ne hS (hY.det hE).2.symm
        simp [Sys.len, Sys.setP, hf, hx]
      · simp [Sys.len, Sys.setP, hP]
    · by_cases hP : Q = p
      · subst hP
        have hx : hd Y 0 = hd m.chan 0 ↔ Y = m.chan :=
          ⟨fun e => (hY.uniq hS hE e (by simp)).1, fun e => by rw [e]⟩
        simp only [Sys.rdn, Sys.setP, update_self, hf, hp, pend, hx]
        split <;> omega
      · simp [Sys.rdn, Sys.setP, hP]
  | hit p q m h att k b hp ha hb => exact hd'.hit hS hi hp
  | miss p q m h att k hp ha hb =>
    exact hd'.pc hi rfl (fun X => by rw [hp]; rfl) rfl rfl (fun x hx => by simp [hx])
      (fun x hx => by
        rcases List.mem_cons.mp hx with rfl | hx
        · exact Or.inr ⟨_, _, _, Or.inl rfl⟩
        · exact Or.inl hx)
  | fail p q m h att k hp ha =>
    exact hd'.pc hi rfl (fun X => by rw [hp]; rfl) rfl rfl (fun x hx => hx) same
  | deadSend p m k hp hq =>
    rcases hp with hp | hp
    · exact hd'.pc hi rfl (fun X => by rw [hp]; rfl) rfl rfl (fun x hx => hx) same
    · exact hd'.pc hi rfl (fun X => by rw [hp]; rfl) rfl rfl (fun x hx => hx) same
  | deadRecv p m k hp hq =>
    exact hd'.pc hi rfl (fun X => by rw [hp]; rfl) rfl rfl (fun x hx => hx) same
  | fork p ms k hp hb hc =>
    exact hd'.pc hi rfl (fun X => by rw [hp]; rfl) rfl rfl (fun x hx => hx) same
  | bgPush p q m ms hb hc hq =>
    have hm : m.OK S p := hi.useB p m (by rw [hi.bg, hb]; simp)
    obtain ⟨q', e, hE⟩ := hm.ends
    obtain rfl : q' = q := by simpa [hq] using e.symm
    exact hd'.put hS hi hE (pc := (σ.proc p).pc) (bg := ms) (bk := true)
      (net := .tryTask p q' ((σ.proc p).put m).2 :: σ.net) (fun X => rfl)
      (fun x hx => by simp [hx]) (fun x hx => by
        rcases List.mem_cons.mp hx with rfl | hx
        · exact Or.inr ⟨_, _, _, Or.inr rfl⟩
        · exact Or.inl hx)
  | deadBg p m ms hb hc hq =>
    exfalso
    have hm : m.OK S p := hi.useB p m (by rw [hi.bg, hb]; simp)
    obtain ⟨q', e, _⟩ := hm.ends
    rw [hq] at e
    cases e
  | bgUnblock p hc hs =>
    exact hd'.pc hi rfl (fun X => rfl) rfl rfl (fun x hx => hx) same
  | join p k hp hb hc =>
    exact hd'.pc hi rfl (fun X => by rw [hp]; rfl) rfl rfl (fun x hx => hx) same
  | trySend p q h b hx hb =>
    exact hd'.net hi rfl (fun q' h' hr => rep_erase (y := .tryTask p q h) (by simp)
      (fun x hx => by simp [hx]) hr) (fun X P Q n _ h1 =>
        Or.inl (old (y := .tryTask p q h) (by simpa using h1)))
  | tryDrop p q h hx hb =>
    exact hd'.net hi rfl (fun q' h' hr => rep_erase (y := .tryTask p q h) (by simp)
      (fun x hx => hx) hr) (fun X P Q n _ h => Or.inl (old h))
  | tryRecv p q h b hx hr =>
    obtain ⟨X, n, hX, rfl, hb⟩ := hi.net _ hx
    refine Dlv.local hi hd' (fun Y P Q _ => ⟨(upd_same (by rfl) (fun _ => by rfl) Y _).1,
      (upd_same (by rfl) (fun _ => by rfl) Y _).2⟩)
      (fun q' h' => ?_) (fun p' h' => Or.inl (upd_out (by rfl) p' h'))
      (fun q' h' hr => Or.inl (rep_erase (y := .tryMsg p q (hd X n) b) (by simp)
        (fun x hx => by simp [hx]) hr)) ?_
    · rcases upd_add (fun h' => Box.look_try (σ.proc q).inbox (hd X n) h' b) q' h'
        with e | ⟨_, _, _, e⟩
      · exact Or.inl e
      · exact Or.inr ⟨b, e⟩
    · intro Y P Q n' hY h
      by_cases he : Item.disc P (hd Y n') = Item.disc p (hd X n)
      · simp only [Item.disc.injEq] at he
        obtain ⟨rfl, he⟩ := he
        obtain ⟨rfl, rfl⟩ := hY.uniq hS hX he (by simp)
        obtain rfl := (hY.det hX).2
        right
        left
        simp only [Sys.inb, update_self]
        exact Box.try_in hr
      · left
        refine old (y := .tryMsg p q (hd X n) b) ?_
        rcases h with h | h
        · exact Or.inl ((List.mem_cons.mp h).resolve_left he)
        · exact Or.inr (by simpa using h)
  | tryRefuse p q h b hx hr =>
    exact hd'.net hi rfl (fun q' h' hr => rep_erase (y := .tryMsg p q h b) (by simp)
      (fun x hx => hx) hr) (fun X P Q n _ h => Or.inl (old h))
  | disc p h hx =>
    refine Dlv.local hi hd' (fun Y P Q _ => ⟨(upd_same (by rfl) (fun _ => by rfl) Y _).1,
      (upd_same (by rfl) (fun _ => by rfl) Y _).2⟩)
      (fun q' h' => Or.inl (upd_inb (by rfl) q' h')) (fun p' h' => ?_)
      (fun q' h' hr => Or.inl (rep_erase (y := .disc p h) (by simp) (fun x hx => hx) hr))
      (fun X P Q n hX h => Or.inl (old h))
    by_cases hp' : p' = p
    · subst hp'
      rcases Box.look_discard (σ.proc p').outbox h h' with e | ⟨rfl, _⟩
      · left
        simpa [Sys.out] using e
      · exact Or.inr (Or.inl hx)
    · left
      simp [Sys.out, hp']
  | getSend q p h b hx hb =>
    obtain ⟨X, n, hX, rfl⟩ := hi.net _ hx
    refine hd'.net hi rfl (fun q' h' hr => rep_erase (y := .getReq q p (hd X n)) (by simp)
      (fun x hx => by simp [hx]) hr) ?_
    intro Y P Q n' hY h
    by_cases he : Item.disc P (hd Y n') = Item.disc p (hd X n)
    · simp only [Item.disc.injEq] at he
      obtain ⟨rfl, he⟩ := he
      obtain ⟨rfl, rfl⟩ := hY.uniq hS hX he (by simp)
      obtain rfl := (hY.det hX).2
      exact Or.inr (Or.inr ⟨b, by simp⟩)
    · left
      refine old (y := .getReq q p (hd X n)) ?_
      rcases h with h | h
      · refine Or.inl ((List.mem_cons.mp ((List.mem_cons.mp h).resolve_left (by simp))).resolve_left
          he)
      · exact Or.inr (by simpa using h)
  | getNone q p h hx hb =>
    exact hd'.net hi rfl (fun q' h' hr => rep_erase (y := .getReq q p h) (by simp)
      (fun x hx => hx) hr) (fun X P Q n _ h => Or.inl (old h))
  | getRecv q h b hx =>
    refine Dlv.local hi hd' (fun Y P Q _ => ⟨(upd_same (by rfl) (fun _ => by rfl) Y _).1,
      (upd_same (by rfl) (fun _ => by rfl) Y _).2⟩)
      (fun q' h' => ?_) (fun p' h' => Or.inl (upd_out (by rfl) p' h'))
      (fun q' h' hr => ?_) (fun X P Q n _ h => Or.inl (old h))
    · rcases upd_add (inb_add σ q h b) q' h' with e | ⟨_, _, _, e⟩
      · exact Or.inl e
      · exact Or.inr ⟨b, e⟩
    · obtain ⟨b', hb'⟩ := hr
      by_cases he : Item.getRep q' h' b' = Item.getRep q h b
      · simp only [Item.getRep.injEq] at he
        obtain ⟨rfl, rfl, rfl⟩ := he
        right
        refine ⟨b', Or.inr ?_⟩
        simp only [Sys.inb, update_self]
        exact Box.add_in _ _ _
      · exact Or.inl ⟨b', (List.mem_erase_of_ne he).mpr hb'⟩
  | lose x hx hl =>
    exact hd'.net hi rfl (fun q' h' hr => rep_erase (y := x)
      (fun q h b e => hL q h b (e ▸ hl)) (fun x hx => hx) hr) (fun X P Q n _ h => Or.inl (old h))

end Laik.Mm
