import Verif.Model.MiniMpiClean
/-!
# Receives and sends of the TCP backend based on GLib get done
-/

namespace Laik.Mm

open Function

variable {β : Type} {S : Comm → Prop}

theorem Box.add_look (b : Box) (h : Hd) (v : Body) (hn : b.look h = none) :
    (b.add h v).get h = some v := by
  rw [Box.get_some, Box.look_add]
  simp [hn]

/-- Process `P` may have moved on, all other threads are where they were. -/
def Alone (σ τ : Sys β) (p : Nat) : Prop :=
  ∀ q, q ≠ p → (τ.proc q).pc = (σ.proc q).pc ∧ (τ.proc q).bg = (σ.proc q).bg ∧
    (τ.proc q).bgBlk = (σ.proc q).bgBlk

/-- A receive of a message in the inbox. -/
theorem get_hit {A : Nat} {σ : Sys β} {p q : Nat} {m : Rcv} {h : Hd} {att : Nat}
    {k : Body → Prog β} {b : Body} (hp : (σ.proc p).pc = .getting m q h att k) (ha : att < A)
    (hb : (σ.proc p).inbox.get h = some b) :
    ∃ τ, Steps A (fun _ => False) σ τ ∧ (τ.proc p).pc = .run (k b) ∧ Alone σ τ p := by
  refine ⟨_, (Step.hit σ p q m h att k b hp ha hb).steps, by simp [Sys.setP], fun q hq => ?_⟩
  simp [Sys.setP, hq]

/-- A receive of a message which is on the way. -/
theorem get_rep {A : Nat} {σ : Sys β} {p q : Nat} {m : Rcv} {h : Hd} {att : Nat}
    {k : Body → Prog β} {b : Body} (hp : (σ.proc p).pc = .getting m q h att k) (ha : att < A)
    (hn : (σ.proc p).inbox.look h = none) (hb : Item.getRep p h b ∈ σ.net) :
    ∃ τ, Steps A (fun _ => False) σ τ ∧ (τ.proc p).pc = .run (k b) ∧ Alone σ τ p := by
  have h1 := (Step.getRecv (A := A) (L := fun _ => False) σ p h b hb).steps
  obtain ⟨τ, h2, h3, h4⟩ := get_hit (A := A) (σ := ⟨update σ.proc p
    { σ.proc p with inbox := (σ.proc p).inbox.add h b }, σ.net.erase (.getRep p h b)⟩) (p := p)
    (q := q) (m := m) (h := h) (att := att) (k := k) (b := b) (by simp [hp]) ha
    (by simp [Box.add_look _ _ _ hn])
  refine ⟨τ, h1.trans h2, h3, fun q hq => ?_⟩
  have := h4 q hq
  simpa [hq] using this

/-- A receive of a message in the outbox of the sender. -/
theorem get_out {A : Nat} {σ : Sys β} {p q : Nat} {m : Rcv} {h : Hd} {att : Nat}
    {k : Body → Prog β} {b : Body} (hpq : q ≠ p) (hp : (σ.proc p).pc = .getting m q h att k)
    (ha : att + 1 < A) (hn : (σ.proc p).inbox.look h = none)
    (hb : (σ.proc q).outbox.get h = some b) :
    ∃ τ, Steps A (fun _ => False) σ τ ∧ (τ.proc p).pc = .run (k b) ∧ Alone σ τ p := by
  have hg : (σ.proc p).inbox.get h = none := by
    cases hg : (σ.proc p).inbox.get h with
    | none => rfl
    | some v =>
      rw [Box.get_some, hn] at hg
      cases hg
  have h1 := (Step.miss (A := A) (L := fun _ => False) σ p q m h att k hp (by omega) hg).steps
  have h2 := (Step.getSend (A := A) (L := fun _ => False) ⟨update σ.proc p
    { σ.proc p with pc := .getting m q h (att + 1) k }, .getReq p q h :: σ.net⟩ p q h b
    (by simp) (by simpa [hpq] using hb)).steps
  obtain ⟨τ, h3, h4, h5⟩ := get_rep (A := A) (σ := ⟨update σ.proc p
    { σ.proc p with pc := .getting m q h (att + 1) k }, .getRep p h b :: .disc q h ::
      (Item.getReq p q h :: σ.net).erase (.getReq p q h)⟩) (p := p) (q := q) (m := m) (h := h)
    (att := att + 1) (k := k) (b := b) (by simp) ha (by simpa using hn) (by simp)
  refine ⟨τ, (h1.trans h2).trans h3, h4, fun q hq => ?_⟩
  have := h5 q hq
  simpa [hq] using this

/-- A receive of a message which was sent can be done by the threads of the backend. -/
theorem Dlv.get (hS : Sep S) {A : Nat} {σ : Sys β} {t : Ideal β} (hd' : Dlv S σ)
    (hi : Inv S σ t) {p q : Nat} {m : Rcv} {h : Hd} {att : Nat} {k : Body → Prog β} {b : Body}
    (hp : (σ.proc p).pc = .getting m q h att k) (ha : att + 1 < A)
    (hb : (t.sent m.chan)[t.rd m.chan]? = some b) :
    ∃ τ, Steps A (fun _ => False) σ τ ∧ (τ.proc p).pc = .run (k b) ∧ Alone σ τ p := by
  obtain ⟨rfl, hE⟩ := hi.get _ _ _ _ _ _ hp
  have hl := (List.getElem?_eq_some_iff.mp hb).1
  have hk := hd'.kept _ _ _ (t.rd m.chan) hE (Nat.le_of_eq (hi.rdn hE)) (by rw [hi.len hE]; exact hl)
  have hI := hi.inb _ _ _ (t.rd m.chan) hE
  cases hin : σ.inb p (hd m.chan (t.rd m.chan)) with
  | some v =>
    obtain ⟨c, hc⟩ := hi.unread hE (Nat.le_of_eq (hi.rdn hE)) (by rw [hin]; simp)
    have := hI.2.2.2 c hc
    obtain rfl : c = b := by simpa [hb] using this.symm
    exact get_hit hp (by omega) (Box.get_some.mpr hc)
  | none =>
    rcases hk with ⟨c, hc⟩ | ⟨c, hc⟩ | ⟨c, hc⟩
    · rw [hin] at hc
      cases hc
    · have := (hi.out _ _ _ _ hE).2 c hc
      obtain rfl : c = b := by simpa [hb] using this.symm
      exact get_out (hE.proc_ne hS) hp ha hin (Box.get_some.mpr hc)
    · obtain ⟨Y, p', n, hY, e, hc'⟩ := hi.net _ hc
      obtain ⟨rfl, rfl⟩ := hE.uniq hS hY e (by simp)
      obtain rfl : c = b := by simpa [hb] using hc'.symm
      exact get_rep hp (by omega) hin hc

/-- All entries of the outbox of `p` which are to be discarded can be discarded. -/
theorem flush {A : Nat} (p : Nat) : ∀ (n : Nat) (σ : Sys β), σ.net.length ≤ n →
    BoxOK (σ.proc p).outbox → (σ.proc p).outbox.limit ≠ sizeMax →
    ∃ τ : Sys β, Steps A (fun _ => False) σ τ ∧
      ∃ B : Box, τ.proc = update σ.proc p { σ.proc p with outbox := B } ∧
        B.limit = (σ.proc p).outbox.limit ∧ BoxOK B ∧
        ∀ h, B.look h = some none ∨ B.look h = none ∨
          (B.look h = (σ.proc p).outbox.look h ∧ Item.disc p h ∉ σ.net) := by
  intro n
  induction n with
  | zero =>
    intro σ hn hB hl
    have hnil : σ.net = [] := List.length_eq_zero_iff.mp (by omega)
    exact ⟨σ, .refl, (σ.proc p).outbox, by simp, rfl, hB, fun h => Or.inr (Or.inr ⟨rfl, by
      rw [hnil]; simp⟩)⟩
  | succ n ih =>
    intro σ hn hB hl
    by_cases hx : ∃ h, Item.disc p h ∈ σ.net
    · obtain ⟨h0, hx⟩ := hx
      have h1 := (Step.disc (A := A) (L := fun _ => False) σ p h0 hx).steps
      have hlen : (σ.net.erase (.disc p h0)).length ≤ n := by
        rw [List.length_erase_of_mem hx]
        omega
      obtain ⟨τ, h2, B, h3, h4, h5, h6⟩ := ih ⟨update σ.proc p
        { σ.proc p with outbox := (σ.proc p).outbox.discard h0 }, σ.net.erase (.disc p h0)⟩ hlen
        (by simpa using hB.discard h0) (by simpa [Box.limit_discard] using hl)
      refine ⟨τ, h1.trans h2, B, by simpa using h3, by simpa [Box.limit_discard] using h4, h5,
        fun h => ?_⟩
      rcases h6 h with e | e | ⟨e, e'⟩
      · exact Or.inl e
      · exact Or.inr (Or.inl e)
      · simp only [update_self] at e
        by_cases hh : h = h0
        · subst hh
          by_cases hn' : (σ.proc p).outbox.look h = none
          · right; left
            rcases Box.look_discard (σ.proc p).outbox h h with e1 | ⟨_, v, e1, _⟩
            · rw [e, e1, hn']
            · rw [hn'] at e1
              cases e1
          · left
            rw [e]
            exact Box.discard_at _ _ hl hn'
        · have hne : Item.disc p h ∉ σ.net := by
            intro hm
            exact e' ((List.mem_erase_of_ne (by simpa using hh)).mpr hm)
          rcases Box.look_discard (σ.proc p).outbox h0 h with e1 | ⟨e1, _⟩
          · exact Or.inr (Or.inr ⟨by rw [e, e1], hne⟩)
          · exact absurd e1 hh
    · exact ⟨σ, .refl, (σ.proc p).outbox, by simp, rfl, hB, fun h => Or.inr (Or.inr ⟨rfl,
        fun hm => hx ⟨h, hm⟩⟩)⟩

theorem total_zero {l : List (Hd × Option Body)} (hk : (l.map (·.1)).Nodup)
    (h : ∀ h, look l h = some none ∨ look l h = none) : total l = 0 := by
  induction l with
  | nil => rfl
  | cons e l ih =>
    simp only [List.map_cons, List.nodup_cons] at hk
    have h1 := h e.1
    simp only [look, if_true] at h1
    have h1 : e.2 = none := by simpa using h1
    have h2 : total l = 0 := by
      refine ih hk.2 fun h' => ?_
      by_cases he : e.1 = h'
      · right
        subst he
        exact look_none.mpr hk.1
      · simpa [look, he] using h h'
    simp [total, h1, h2]

/-- If all messages sent by `p` were received, its outbox can be made empty. -/
theorem All.flushed {A ol : Nat} {σ : Sys β} {t : Ideal β} (ha : All S ol σ t) {p : Nat}
    (hns : ∀ q h k, (σ.proc p).pc ≠ .syncing q h k)
    (hr : ∀ X Q, Ends S X p Q → t.rd X = (t.sent X).length) :
    ∃ τ : Sys β, Steps A (fun _ => False) σ τ ∧
      ∃ B : Box, τ.proc = update σ.proc p { σ.proc p with outbox := B } ∧ ¬ B.size > B.limit := by
  by_cases hl : (σ.proc p).outbox.limit = sizeMax
  · refine ⟨σ, .refl, (σ.proc p).outbox, by simp, ?_⟩
    rw [hl]
    have := (ha.clean.box p).max
    omega
  · obtain ⟨τ, h1, B, h2, h3, h4, h5⟩ := flush (A := A) p _ σ (Nat.le_refl _) (ha.clean.box p) hl
    refine ⟨τ, h1, B, h2, ?_⟩
    have : total B.tab = 0 := by
      refine total_zero h4.keys fun h => ?_
      rcases h5 h with e | e | ⟨e, hx⟩
      · exact Or.inl e
      · exact Or.inr e
      · by_cases hn : (σ.proc p).outbox.look h = none
        · exact Or.inr (e.trans hn)
        · obtain ⟨X, Q, n, hX, rfl⟩ := ha.clean.keys p h hn
          have hlt : n < t.rd X := by
            rw [hr X Q hX]
            exact (ha.inv.out _ _ _ n hX).1.mpr hn
          rcases ha.clean.good X p Q n hX (Or.inl ((ha.inv.inb _ _ _ n hX).1 hlt)) with
            hg | hg | hg | ⟨q, k, hg⟩
          · exact Or.inl (e.trans hg)
          · exact absurd hg hx
          · exact absurd hg hl
          · exact absurd hg (hns _ _ _)
    have := h4.size
    omega

/-- A blocked send can go on if all messages were received. -/
theorem All.unblock {A ol : Nat} {σ : Sys β} {t : Ideal β} (ha : All S ol σ t) {p : Nat} {k : Prog β}
    (hp : (σ.proc p).pc = .blocked k)
    (hr : ∀ X Q, Ends S X p Q → t.rd X = (t.sent X).length) :
    ∃ τ, Steps A (fun _ => False) σ τ ∧ (τ.proc p).pc = .run k ∧
      (τ.proc p).bgBlk = (σ.proc p).bgBlk ∧ Alone σ τ p := by
  obtain ⟨τ, h1, B, h2, h3⟩ := ha.flushed (A := A) (p := p) (by simp [hp]) hr
  refine ⟨_, h1.trans (Step.unblock τ p k (by simp [h2, hp]) (by simpa [h2] using h3)).steps, ?_, ?_,
    fun q hq => ?_⟩
  · simp [Sys.setP]
  · simp [Sys.setP, h2]
  · simp [Sys.setP, hq, h2]

/-- A blocked send in the background can go on if all messages were received. -/
theorem All.bgUnblock {A ol : Nat} {σ : Sys β} {t : Ideal β} (ha : All S ol σ t) {p : Nat}
    (hp : (σ.proc p).bgBlk = true) (hns : ∀ q h k, (σ.proc p).pc ≠ .syncing q h k)
    (hr : ∀ X Q, Ends S X p Q → t.rd X = (t.sent X).length) :
    ∃ τ, Steps A (fun _ => False) σ τ ∧ (τ.proc p).bgBlk = false ∧
      (τ.proc p).pc = (σ.proc p).pc ∧ Alone σ τ p := by
  obtain ⟨τ, h1, B, h2, h3⟩ := ha.flushed (A := A) (p := p) hns hr
  refine ⟨_, h1.trans (Step.bgUnblock τ p (by simp [h2, hp]) (by simpa [h2] using h3)).steps, ?_, ?_,
    fun q hq => ?_⟩
  · simp [Sys.setP]
  · simp [Sys.setP, h2]
  · simp [Sys.setP, hq, h2]

/-- A synchronous send always can be finished. -/
theorem sync_done (hS : Sep S) {A : Nat} {σ : Sys β} {t : Ideal β} (hi : Inv S σ t) {p q : Nat}
    {h : Hd} {k : Prog β} (hp : (σ.proc p).pc = .syncing q h k) :
    ∃ τ, Steps A (fun _ => False) σ τ ∧ (τ.proc p).pc = .run k ∧
      (τ.proc p).bgBlk = (σ.proc p).bgBlk ∧ Alone σ τ p := by
  obtain ⟨X, n, hX, rfl, hn⟩ := hi.syn _ _ _ _ hp
  have hne := hX.proc_ne hS
  cases hb : (σ.proc p).outbox.get (hd X n) with
  | none =>
    refine ⟨_, (Step.syncGone σ p q _ k hp hb).steps, by simp [Sys.setP], by simp [Sys.setP], fun q' hq => ?_⟩
    simp [Sys.setP, hq]
  | some b =>
    have h1 := (Step.addSend (A := A) (L := fun _ => False) σ p q _ k b hp hb).steps
    have h2 := (Step.addRecv (A := A) (L := fun _ => False) ⟨σ.proc, .addMsg p q (hd X n) b :: σ.net⟩
      p q (hd X n) b (by simp)).steps
    have h3 := (Step.addDone (A := A) (L := fun _ => False) ⟨update σ.proc q
      { σ.proc q with inbox := (σ.proc q).inbox.add (hd X n) b }, .addAck p (hd X n) ::
      (Item.addMsg p q (hd X n) b :: σ.net).erase (.addMsg p q (hd X n) b)⟩ p q (hd X n) k
      (by simp [hne, hp]) (by simp)).steps
    refine ⟨_, (h1.trans h2).trans h3, by simp, by simp [hne], fun q' hq => ?_⟩
    simp only [update_of_ne hq]
    by_cases hqq : q' = q
    · subst hqq
      simp
    · simp [hqq]

/-- When a synchronous send returns, the message came to the receiver. -/
theorem sync_come {A : Nat} {L : Item → Prop} {σ τ : Sys β} {t : Ideal β}
    (hi : Inv S σ t) (hd' : Dlv S σ) {p q : Nat} {h : Hd} {k : Prog β}
    (hp : (σ.proc p).pc = .syncing q h k) (hs : Step A L σ τ)
    (hk : (τ.proc p).pc = .run k) :
    σ.inb q h ≠ none ∨ σ.rep q h := by
  obtain ⟨X, n, hX, rfl, hn⟩ := hi.syn _ _ _ _ hp
  have ack : ∀ q' h k', (σ.proc p).pc = .syncing q' h k' → Item.addAck p h ∈ σ.net →
      σ.inb q (hd X n) ≠ none ∨ σ.rep q (hd X n) := by
    intro q' h k' e hx
    rw [hp] at e
    simp only [Pc.syncing.injEq] at e
    obtain ⟨rfl, rfl, rfl⟩ := e
    exact hd'.disc _ _ _ n hX (Or.inr hx)
  have gone : ∀ q' h k', (σ.proc p).pc = .syncing q' h k' → (σ.proc p).outbox.get h = none →
      σ.inb q (hd X n) ≠ none ∨ σ.rep q (hd X n) := by
    intro q' h k' e hg
    rw [hp] at e
    simp only [Pc.syncing.injEq] at e
    obtain ⟨rfl, rfl, rfl⟩ := e
    by_cases hr : t.rd X ≤ n
    · rcases hd'.kept X p q n hX (by rw [hi.rdn hX]; exact hr) (by rw [hi.len hX]; exact hn) with
        ⟨b, h⟩ | ⟨b, h⟩ | h
      · exact Or.inl (by simp [h])
      · rw [Box.get_some.mpr h] at hg
        cases hg
      · exact Or.inr h
    · exact Or.inl ((hi.inb _ _ _ n hX).1 (by omega))
  have same : ∀ (p' : Nat) (R : Proc β) (net : List Item),
      (p' = p → R.pc = (σ.proc p).pc) →
      (Sys.proc ⟨update σ.proc p' R, net⟩ p).pc = .run k → False := by
    intro p' R net h1 h2
    by_cases he : p = p'
    · subst he
      simp [h1, hp] at h2
    · simp [he, hp] at h2
  have other : ∀ (p' : Nat) (R : Proc β) (net : List Item) (pc' : Pc β), (σ.proc p').pc = pc' →
      (∀ q h k, pc' ≠ .syncing q h k) →
      (Sys.proc ⟨update σ.proc p' R, net⟩ p).pc = .run k → False := by
    intro p' R net pc' h1 h2 h3
    refine same p' R net (fun e => ?_) h3
    subst e
    rw [hp] at h1
    exact absurd h1.symm (h2 _ _ _)
  have stay : (σ.proc p).pc = .run k → False := by simp [hp]
  cases hs with
  | push p' q' m k' hp' hq' => exact (other p' _ _ _ hp' (by simp) hk).elim
  | unblock p' k' hp' hs => exact (other p' _ _ _ hp' (by simp) hk).elim
  | sync p' q' m k' hp' hq' => exact (other p' _ _ _ hp' (by simp) hk).elim
  | addSend p' q' h k' b hp' hb => exact (stay hk).elim
  | addRecv p' q' h b hx => exact (same q' _ _ (fun e => by rw [e]) hk).elim
  | addDone p' q' h k' hp' hx =>
    by_cases he : p' = p
    · subst he
      exact ack _ _ _ hp' hx
    · exact (same p' _ _ (fun e => absurd e he) hk).elim
  | syncGone p' q' h k' hp' hb =>
    by_cases he : p' = p
    · subst he
      exact gone _ _ _ hp' hb
    · exact (same p' _ _ (fun e => absurd e he) hk).elim
  | ask p' q' m k' hp' hq' => exact (other p' _ _ _ hp' (by simp) hk).elim
  | hit p' q' m h att k' b hp' ha hb => exact (other p' _ _ _ hp' (by simp) hk).elim
  | miss p' q' m h att k' hp' ha hb => exact (other p' _ _ _ hp' (by simp) hk).elim
  | fail p' q' m h att k' hp' ha => exact (other p' _ _ _ hp' (by simp) hk).elim
  | deadSend p' m k' hp' hq' =>
    rcases hp' with hp' | hp'
    · exact (other p' _ _ _ hp' (by simp) hk).elim
    · exact (other p' _ _ _ hp' (by simp) hk).elim
  | deadRecv p' m k' hp' hq' => exact (other p' _ _ _ hp' (by simp) hk).elim
  | fork p' ms k' hp' hb hc' => exact (other p' _ _ _ hp' (by simp) hk).elim
  | bgPush p' q' m ms hb hc' hq' => exact (same p' _ _ (fun e => by rw [e]; rfl) hk).elim
  | deadBg p' m ms hb hc' hq' =>
    by_cases he : p = p'
    · subst he
      simp [Sys.setP] at hk
    · simp [Sys.setP, he, hp] at hk
  | bgUnblock p' hc' hs => exact (same p' _ _ (fun e => by rw [e]) hk).elim
  | join p' k' hp' hb hc' => exact (other p' _ _ _ hp' (by simp) hk).elim
  | trySend p' q' h b hx hb => exact (stay hk).elim
  | tryDrop p' q' h hx hb => exact (stay hk).elim
  | tryRecv p' q' h b hx hr => exact (same q' _ _ (fun e => by rw [e]) hk).elim
  | tryRefuse p' q' h b hx hr => exact (stay hk).elim
  | disc p' h hx => exact (same p' _ _ (fun e => by rw [e]) hk).elim
  | getSend q' p' h b hx hb => exact (stay hk).elim
  | getNone q' p' h hx hb => exact (stay hk).elim
  | getRecv q' h b hx => exact (same q' _ _ (fun e => by rw [e]) hk).elim
  | lose x hx hl => exact (stay hk).elim

end Laik.Mm
