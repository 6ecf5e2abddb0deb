import Verif.Model.MiniMpiInv
/-!
# Executions of the TCP backend based on GLib are executions with ideal channels
-/

namespace Laik.Mm

open Function

variable {β : Type} {S : Comm → Prop}

theorem IStep.steps {t u : Ideal β} (h : IStep t u) : ISteps t u := .tail .refl h

theorem ISteps.trans {t u v : Ideal β} (h : ISteps t u) (h' : ISteps u v) : ISteps t v := by
  induction h' with
  | refl => exact h
  | tail _ hs ih => exact .tail ih hs

theorem Steps.trans {A : Nat} {L : Item → Prop} {σ τ υ : Sys β} (h : Steps A L σ τ)
    (h' : Steps A L τ υ) : Steps A L σ υ := by
  induction h' with
  | refl => exact h
  | tail _ hs ih => exact .tail ih hs

theorem Step.steps {A : Nat} {L : Item → Prop} {σ τ : Sys β} (h : Step A L σ τ) : Steps A L σ τ :=
  .tail .refl h

theorem Inv.start (il ol : Nat) {prog : Nat → Prog β} (hu : ∀ p, Uses S p (prog p)) :
    Inv S (Sys.start il ol prog) (Ideal.start prog) := by
  constructor
  · intro p
    simp [Sys.start, Ideal.start, Pc.abs]
  · intro p
    rfl
  · exact hu
  · intro p m hm
    simp [Ideal.start] at hm
  · intros
    rfl
  · intros
    rfl
  · intro p m q h att k hp
    simp [Sys.start] at hp
  · intro p q h k hp
    simp [Sys.start] at hp
  · intros
    simp [Ideal.start, Sys.start, Sys.out, Box.new, Box.look, look]
  · intros
    simp [Ideal.start, Sys.start, Sys.inb, Box.new, Box.look, look]
  · intro x hx
    simp [Sys.start] at hx

/-- Steps of process `p` (or a server thread of it) which send or receive nothing and
do not change the program. -/
theorem Inv.quiet (hS : Sep S) {σ : Sys β} {t : Ideal β} (hi : Inv S σ t) {p : Nat} {P : Proc β}
    {net : List Item} (ha : P.pc.abs = (σ.proc p).pc.abs) (h1 : P.pc ≠ .dead)
    (hb : P.bg = (σ.proc p).bg) (hf : P.flows = (σ.proc p).flows)
    (hpd : ∀ X, pend P.pc X = pend (σ.proc p).pc X)
    (h3 : ∀ m q h att k, P.pc = .getting m q h att k →
      ∃ att', (σ.proc p).pc = .getting m q h att' k)
    (h4 : ∀ q h k, P.pc = .syncing q h k → (σ.proc p).pc = .syncing q h k)
    (h5 : ∀ h, P.outbox.look h = σ.out p h ∨
      (∃ b, σ.out p h = some (some b) ∧ P.outbox.look h = some none))
    (h6 : ∀ h, P.inbox.look h = σ.inb p h ∨
      (σ.inb p h = none ∧ ∃ X n q b, Ends S X q p ∧ h = hd X n ∧ (t.sent X)[n]? = some b ∧
        P.inbox.look h = some (some b)))
    (h7 : ∀ x ∈ net, ItemOK S t.sent x) :
    Inv S ⟨update σ.proc p P, net⟩ t := by
  have := hi.local hS (P := P) (net := net) h1 (by rw [ha, ← (hi.pc p).2]; exact hi.use p)
    (by rw [hb, ← hi.bg p]; exact hi.useB p) (fun X q _ => by rw [hf, hpd])
    (fun m q h att k h' => by
      obtain ⟨att', h''⟩ := h3 _ _ _ _ _ h'
      exact hi.get _ _ _ _ _ _ h'')
    (fun q h k h' => hi.syn _ _ _ _ (h4 _ _ _ h')) h5 h6 h7
  rwa [Ideal.setP_self (by rw [ha, (hi.pc p).2]) (by rw [hb, hi.bg p])] at this

theorem Inv.setNet {σ : Sys β} {t : Ideal β} (hi : Inv S σ t) {net : List Item}
    (h7 : ∀ x ∈ net, ItemOK S t.sent x) : Inv S { σ with net := net } t :=
  ⟨hi.pc, hi.bg, hi.use, hi.useB, hi.fS, hi.fR, hi.get, hi.syn, hi.out, hi.inb, h7⟩

theorem erase_ok {sent : Chan → List Body} {net : List Item} (h : ∀ x ∈ net, ItemOK S sent x)
    (y : Item) : ∀ x ∈ net.erase y, ItemOK S sent x :=
  fun x hx => h x (List.mem_of_mem_erase hx)

theorem cons_ok {sent : Chan → List Body} {net : List Item} {y : Item} (hy : ItemOK S sent y)
    (h : ∀ x ∈ net, ItemOK S sent x) : ∀ x ∈ y :: net, ItemOK S sent x := by
  intro x hx
  rcases List.mem_cons.mp hx with rfl | hx
  · exact hy
  · exact h x hx

/-- Inbox of `q` gets message `n` of `X`. -/
theorem Inv.inAdd (hS : Sep S) {σ : Sys β} {t : Ideal β} (hi : Inv S σ t) {p q n : Nat} {X : Chan}
    {b : Body} (hX : Ends S X p q) (hb : (t.sent X)[n]? = some b) {B : Box}
    (hB : ∀ h', B.look h' = σ.inb q h' ∨
      (h' = hd X n ∧ σ.inb q h' = none ∧ B.look h' = some (some b)))
    {net : List Item} (h7 : ∀ x ∈ net, ItemOK S t.sent x) :
    Inv S ⟨update σ.proc q { σ.proc q with inbox := B }, net⟩ t := by
  refine hi.quiet hS rfl (hi.pc q).1 rfl rfl (fun _ => rfl) (fun m q h att k h' => ⟨att, h'⟩)
    (fun _ _ _ h => h) (fun h => Or.inl rfl) (fun h => ?_) h7
  rcases hB h with e | ⟨rfl, e1, e2⟩
  · exact Or.inl e
  · exact Or.inr ⟨e1, X, n, p, b, hX, rfl, hb, e2⟩

theorem inb_add (σ : Sys β) (q : Nat) (h : Hd) (b : Body) (h' : Hd) :
    ((σ.proc q).inbox.add h b).look h' = σ.inb q h' ∨
      (h' = h ∧ σ.inb q h' = none ∧ ((σ.proc q).inbox.add h b).look h' = some (some b)) := by
  rw [Box.look_add]
  by_cases hc : h' = h ∧ (σ.proc q).inbox.look h = none
  · right
    rw [if_pos hc]
    exact ⟨hc.1, by rw [hc.1]; exact hc.2, rfl⟩
  · left
    rw [if_neg hc]
    rfl

theorem out_discard (σ : Sys β) (p : Nat) (h : Hd) (h' : Hd) :
    ((σ.proc p).outbox.discard h).look h' = σ.out p h' ∨
      (∃ b, σ.out p h' = some (some b) ∧ ((σ.proc p).outbox.discard h).look h' = some none) := by
  rcases Box.look_discard (σ.proc p).outbox h h' with e | ⟨_, b, e1, e2⟩
  · exact Or.inl e
  · exact Or.inr ⟨b, e1, e2⟩

/-- A message found in the outbox of `p` is the one sent. -/
theorem Inv.outGet {σ : Sys β} {t : Ideal β} (hi : Inv S σ t) {p q n : Nat} {X : Chan} {b : Body}
    (hX : Ends S X p q) (hb : (σ.proc p).outbox.get (hd X n) = some b) :
    (t.sent X)[n]? = some b :=
  (hi.out _ _ _ _ hX).2 b (Box.get_some.mp hb)

/-- Each step is a step with ideal channels, or none. -/
theorem Inv.step (hS : Sep S) {A : Nat} {L : Item → Prop} {σ τ : Sys β} {t : Ideal β}
    (hi : Inv S σ t) (h : Step A L σ τ) : ∃ u, ISteps t u ∧ Inv S τ u := by
  have upr : ∀ {p k}, (σ.proc p).pc = .run k → t.prog p = k ∧ Uses S p k := by
    intro p k hp
    have h1 := (hi.pc p).2
    rw [hp] at h1
    have h1 : t.prog p = k := h1
    exact ⟨h1, h1 ▸ hi.use p⟩
  cases h with
  | push p q m k hp hq =>
    obtain ⟨hk, hu⟩ := upr hp
    cases hu with
    | send hm huk =>
      obtain ⟨q', e, hE⟩ := hm.ends
      obtain rfl : q' = q := by simpa [hq] using e.symm
      have := (hi.put hS hm hE (pc := .blocked k) (bg := (σ.proc p).bg) (bk := (σ.proc p).bgBlk)
        (net := .tryTask p q' ((σ.proc p).put m).2 :: σ.net) (by simp) huk
        (by rw [← hi.bg]; exact hi.useB p) (fun X => by rw [hp]; rfl) (by simp) (by simp)
        (fun x hx => by simpa using hx)).2
      refine ⟨_, (IStep.send t p m k hk).steps, ?_⟩
      have e : update t.bg p (σ.proc p).bg = t.bg := by
        rw [← hi.bg]
        simp
      simp only [Ideal.setP, e] at this
      exact this
  | unblock p k hp hs =>
    refine ⟨t, .refl, hi.quiet hS (by rw [hp]; rfl) (by simp) rfl rfl (fun X => by rw [hp]; rfl)
      (by simp) (by simp) (fun h => Or.inl rfl) (fun h => Or.inl rfl) hi.net⟩
  | sync p q m k hp hq =>
    obtain ⟨hk, hu⟩ := upr hp
    cases hu with
    | ssend hm huk =>
      obtain ⟨q', e, hE⟩ := hm.ends
      obtain rfl : q' = q := by simpa [hq] using e.symm
      have := (hi.put hS hm hE (pc := .syncing q' ((σ.proc p).put m).2 k) (bg := (σ.proc p).bg)
        (bk := (σ.proc p).bgBlk) (net := σ.net) (by simp) huk
        (by rw [← hi.bg]; exact hi.useB p) (fun X => by rw [hp]; rfl) (by simp)
        (fun a b c h => by
          simp only [Pc.syncing.injEq] at h
          exact Or.inl ⟨h.1.symm, h.2.1.symm⟩)
        (fun x hx => Or.inr hx)).2
      refine ⟨_, (IStep.ssend t p m k hk).steps, ?_⟩
      have e : update t.bg p (σ.proc p).bg = t.bg := by
        rw [← hi.bg]
        simp
      simp only [Ideal.setP, e] at this
      exact this
  | addSend p q h k b hp hb =>
    obtain ⟨X, n, hX, rfl, _⟩ := hi.syn _ _ _ _ hp
    exact ⟨t, .refl, hi.setNet (cons_ok ⟨X, n, hX, rfl, hi.outGet hX hb⟩ hi.net)⟩
  | addRecv p q h b hx =>
    obtain ⟨X, n, hX, rfl, hb⟩ := hi.net _ hx
    exact ⟨t, .refl, hi.inAdd hS hX hb (inb_add σ q _ b)
      (cons_ok ⟨X, q, n, hX, rfl, (List.getElem?_eq_some_iff.mp hb).1⟩ (erase_ok hi.net _))⟩
  | addDone p q h k hp hx =>
    exact ⟨t, .refl, hi.quiet hS (by rw [hp]; rfl) (by simp) rfl rfl (fun X => by rw [hp]; rfl)
      (by simp) (by simp) (out_discard σ p h) (fun h => Or.inl rfl) (erase_ok hi.net _)⟩
  | syncGone p q h k hp hb =>
    exact ⟨t, .refl, hi.quiet hS (by rw [hp]; rfl) (by simp) rfl rfl (fun X => by rw [hp]; rfl)
      (by simp) (by simp) (fun h => Or.inl rfl) (fun h => Or.inl rfl) hi.net⟩
  | ask p q m k hp hq =>
    obtain ⟨hk, hu⟩ := upr hp
    have hu' := hu
    cases hu with
    | recv hm huk =>
      obtain ⟨q', e, hE⟩ := hm.ends
      obtain rfl : q' = q := by simpa [hq] using e.symm
      have hh : ((σ.proc p).ask m).2 = hd m.chan (t.rd m.chan) := by
        have := hi.fR _ _ _ hE
        rw [hp] at this
        simp only [pend, Nat.add_zero] at this
        simp only [Proc.ask, header_fst]
        rw [← this]
        rfl
      have := hi.local hS (p := p) (P := { ((σ.proc p).ask m).1 with
          pc := .getting m q' ((σ.proc p).ask m).2 0 k }) (net := σ.net) (by simp) hu'
        (by rw [show (((σ.proc p).ask m).1).bg = (σ.proc p).bg from rfl, ← hi.bg]; exact hi.useB p)
        (fun X r hX => by
          have h1 : uses ((((σ.proc p).ask m).1).flows (hd X 0))
              = if hd X 0 = hd m.chan 0 then uses ((σ.proc p).flows (hd X 0)) + 1
                else uses ((σ.proc p).flows (hd X 0)) := by
            simp only [Proc.ask, header_snd]
            rfl
          have h2 : hd X 0 = hd m.chan 0 ↔ X = m.chan := by
            refine ⟨fun e => ?_, fun e => by rw [e]⟩
            rcases hX with hX | hX
            · exact (hX.uniq hS hE e (by simp)).1
            · exact (hX.uniq hS hE e (by simp)).1
          simp only [h1, h2, hp, pend]
          split <;> omega)
        (fun m' a h' att k' he => by
          simp only [Pc.getting.injEq] at he
          obtain ⟨rfl, rfl, rfl, _, _⟩ := he
          exact ⟨hh, hE⟩)
        (by simp) (fun h => Or.inl rfl) (fun h => Or.inl rfl) hi.net
      refine ⟨t, .refl, ?_⟩
      rwa [Ideal.setP_self (by rw [hk]; rfl) (by rw [hi.bg]; rfl)] at this
  | hit p q m h att k b hp ha hb =>
    obtain ⟨hs, hi'⟩ := hi.hit hS hp hb
    refine ⟨_, (IStep.recv t p m k b ?_ hs).steps, hi'⟩
    rw [(hi.pc p).2, hp]
    rfl
  | miss p q m h att k hp ha hb =>
    obtain ⟨rfl, hE⟩ := hi.get _ _ _ _ _ _ hp
    exact ⟨t, .refl, hi.quiet hS (by rw [hp]; rfl) (by simp) rfl rfl (fun X => by rw [hp]; rfl)
      (fun m' a h' att' k' he => by
        simp only [Pc.getting.injEq] at he
        obtain ⟨rfl, rfl, rfl, _, rfl⟩ := he
        exact ⟨att, hp⟩)
      (by simp) (fun h => Or.inl rfl) (fun h => Or.inl rfl)
      (cons_ok ⟨m.chan, _, hE, rfl⟩ hi.net)⟩
  | fail p q m h att k hp ha =>
    exact ⟨t, .refl, hi.quiet hS (by rw [hp]; rfl) (by simp) rfl rfl (fun X => by rw [hp]; rfl)
      (by simp) (by simp) (fun h => Or.inl rfl) (fun h => Or.inl rfl) hi.net⟩
  | deadSend p m k hp hq =>
    exfalso
    have hm : m.OK S p := by
      rcases hp with hp | hp
      · obtain ⟨_, hu⟩ := upr hp
        cases hu with
        | send hm _ => exact hm
      · obtain ⟨_, hu⟩ := upr hp
        cases hu with
        | ssend hm _ => exact hm
    obtain ⟨q', e, _⟩ := hm.ends
    rw [hq] at e
    cases e
  | deadRecv p m k hp hq =>
    exfalso
    obtain ⟨_, hu⟩ := upr hp
    cases hu with
    | recv hm _ =>
      obtain ⟨q', e, _⟩ := hm.ends
      rw [hq] at e
      cases e
  | fork p ms k hp hb hc =>
    obtain ⟨hk, hu⟩ := upr hp
    cases hu with
    | fork hms huk =>
      have := hi.local hS (p := p) (P := { σ.proc p with pc := .run k, bg := ms }) (net := σ.net)
        (by simp) huk hms (fun X r hX => by rw [hp]; rfl) (by simp) (by simp)
        (fun h => Or.inl rfl) (fun h => Or.inl rfl) hi.net
      exact ⟨_, (IStep.fork t p ms k hk (by rw [hi.bg, hb])).steps, this⟩
  | bgPush p q m ms hb hc hq =>
    have hm : m.OK S p := hi.useB p m (by rw [hi.bg, hb]; simp)
    obtain ⟨q', e, hE⟩ := hm.ends
    obtain rfl : q' = q := by simpa [hq] using e.symm
    have := (hi.put hS hm hE (pc := (σ.proc p).pc) (bg := ms) (bk := true)
      (net := .tryTask p q' ((σ.proc p).put m).2 :: σ.net) (hi.pc p).1
      (by rw [← (hi.pc p).2]; exact hi.use p)
      (fun m' hm' => hi.useB p m' (by rw [hi.bg, hb]; simp [hm'])) (fun X => rfl)
      (fun _ _ _ _ _ h => h) (fun _ _ _ h => Or.inr h) (fun x hx => by simpa using hx)).2
    refine ⟨_, (IStep.bg t p m ms (by rw [hi.bg, hb])).steps, ?_⟩
    rw [← (hi.pc p).2] at this
    simpa [Ideal.setP, Proc.put] using this
  | deadBg p m ms hb hc hq =>
    exfalso
    have hm : m.OK S p := hi.useB p m (by rw [hi.bg, hb]; simp)
    obtain ⟨q', e, _⟩ := hm.ends
    rw [hq] at e
    cases e
  | bgUnblock p hc hs =>
    exact ⟨t, .refl, hi.quiet hS rfl (hi.pc p).1 rfl rfl (fun X => rfl)
      (fun m q h att k h' => ⟨att, h'⟩) (fun _ _ _ h => h) (fun h => Or.inl rfl)
      (fun h => Or.inl rfl) hi.net⟩
  | join p k hp hb hc =>
    obtain ⟨hk, hu⟩ := upr hp
    cases hu with
    | join huk =>
      have := hi.local hS (p := p) (P := { σ.proc p with pc := .run k }) (net := σ.net)
        (by simp) huk (by rw [← hi.bg]; exact hi.useB p) (fun X r hX => by rw [hp]; rfl) (by simp)
        (by simp) (fun h => Or.inl rfl) (fun h => Or.inl rfl) hi.net
      refine ⟨_, (IStep.join t p k hk (by rw [hi.bg, hb])).steps, ?_⟩
      simpa [Ideal.setP, Pc.abs, ← hi.bg, Sys.setP] using this
  | trySend p q h b hx hb =>
    obtain ⟨X, n, hX, rfl, _⟩ := hi.net _ hx
    exact ⟨t, .refl, hi.setNet (cons_ok ⟨X, n, hX, rfl, hi.outGet hX hb⟩ (erase_ok hi.net _))⟩
  | tryDrop p q h hx hb => exact ⟨t, .refl, hi.setNet (erase_ok hi.net _)⟩
  | tryRecv p q h b hx hr =>
    obtain ⟨X, n, hX, rfl, hb⟩ := hi.net _ hx
    exact ⟨t, .refl, hi.inAdd hS hX hb (fun h' => Box.look_try _ _ h' _)
      (cons_ok ⟨X, q, n, hX, rfl, (List.getElem?_eq_some_iff.mp hb).1⟩ (erase_ok hi.net _))⟩
  | tryRefuse p q h b hx hr => exact ⟨t, .refl, hi.setNet (erase_ok hi.net _)⟩
  | disc p h hx =>
    exact ⟨t, .refl, hi.quiet hS rfl (hi.pc p).1 rfl rfl (fun X => rfl)
      (fun m q h att k h' => ⟨att, h'⟩) (fun _ _ _ h => h) (out_discard σ p h)
      (fun h => Or.inl rfl) (erase_ok hi.net _)⟩
  | getSend q p h b hx hb =>
    obtain ⟨X, n, hX, rfl⟩ := hi.net _ hx
    have hs := hi.outGet hX hb
    exact ⟨t, .refl, hi.setNet (cons_ok ⟨X, p, n, hX, rfl, hs⟩
      (cons_ok ⟨X, q, n, hX, rfl, (List.getElem?_eq_some_iff.mp hs).1⟩ (erase_ok hi.net _)))⟩
  | getNone q p h hx hb => exact ⟨t, .refl, hi.setNet (erase_ok hi.net _)⟩
  | getRecv q h b hx =>
    obtain ⟨X, p, n, hX, rfl, hb⟩ := hi.net _ hx
    exact ⟨t, .refl, hi.inAdd hS hX hb (inb_add σ q _ b) (erase_ok hi.net _)⟩
  | lose x hx hl => exact ⟨t, .refl, hi.setNet (erase_ok hi.net _)⟩

theorem Inv.steps (hS : Sep S) {A : Nat} {L : Item → Prop} {σ τ : Sys β} {t : Ideal β}
    (hi : Inv S σ t) (h : Steps A L σ τ) : ∃ u, ISteps t u ∧ Inv S τ u := by
  induction h with
  | refl => exact ⟨t, .refl, hi⟩
  | tail _ hs ih =>
    obtain ⟨u, hu, hi'⟩ := ih
    obtain ⟨v, hv, hi''⟩ := hi'.step hS hs
    exact ⟨v, hu.trans hv, hi''⟩

end Laik.Mm
