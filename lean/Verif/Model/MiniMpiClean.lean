import Verif.Model.MiniMpiLive
/-!
# Outboxes of the TCP backend based on GLib get empty
-/

namespace Laik.Mm

open Function

variable {β : Type} {S : Comm → Prop}

/-- Bytes in a table. -/
def total : List (Hd × Option Body) → Nat
  | [] => 0
  | e :: l => (e.2.getD []).length + total l

structure BoxOK (b : Box) : Prop where
  keys : (b.tab.map (·.1)).Nodup
  size : b.size ≤ total b.tab
  max : b.size ≤ sizeMax

theorem look_none {l : List (Hd × Option Body)} {h : Hd} : look l h = none ↔ h ∉ l.map (·.1) := by
  induction l with
  | nil => simp [look]
  | cons e l ih =>
    by_cases he : e.1 = h
    · subst he
      simp [look]
    · have h2 : ¬ h = e.1 := fun x => he x.symm
      simp [look, he, h2, ih]

theorem BoxOK.add {b : Box} (hb : BoxOK b) (h : Hd) (v : Body) : BoxOK (b.add h v) := by
  unfold Box.add
  split
  · exact hb
  · rename_i hn
    have h1 := hb.size
    have h2 := hb.max
    refine ⟨?_, ?_, ?_⟩
    · simp only [List.map_cons, List.nodup_cons]
      exact ⟨look_none.mp hn, hb.keys⟩
    · simp only [total, Option.getD_some, plus]
      split <;> omega
    · simp only [plus]
      split <;> omega

theorem total_discard {l : List (Hd × Option Body)} {h : Hd} {v : Body}
    (hk : (l.map (·.1)).Nodup) (hv : look l h = some (some v)) :
    total (l.map fun e => if e.1 = h then (h, none) else e) + v.length = total l := by
  induction l with
  | nil => simp [look] at hv
  | cons e l ih =>
    simp only [List.map_cons, List.nodup_cons] at hk
    by_cases he : e.1 = h
    · subst he
      simp only [look, if_true, Option.some.injEq] at hv
      have hl : l.map (fun e' => if e'.1 = e.1 then (e.1, none) else e') = l := by
        conv_rhs => rw [← List.map_id l]
        refine List.map_congr_left fun e' he' => ?_
        rw [if_neg]
        · rfl
        · intro h
          exact hk.1 (List.mem_map.mpr ⟨e', he', h⟩)
      simp only [List.map_cons, if_true, hl, total, hv, Option.getD_none, Option.getD_some,
        List.length_nil]
      omega
    · simp only [look, if_neg he] at hv
      have := ih hk.2 hv
      simp only [List.map_cons, if_neg he, total]
      omega

theorem BoxOK.discard {b : Box} (hb : BoxOK b) (h : Hd) : BoxOK (b.discard h) := by
  unfold Box.discard
  split
  · exact hb
  · split
    · rename_i v hv
      have h1 := hb.size
      have h2 := hb.max
      refine ⟨?_, ?_, ?_⟩
      · have : (b.tab.map fun e => if e.1 = h then (h, none) else e).map (·.1) = b.tab.map (·.1) := by
          rw [List.map_map]
          refine List.map_congr_left fun e _ => ?_
          simp only [comp]
          split
          · rename_i he
            exact he.symm
          · rfl
        simp only [this]
        exact hb.keys
      · have := total_discard hb.keys hv
        simp only [minus]
        split <;> omega
      · simp only [minus]
        split <;> omega
    · exact hb

theorem Box.limit_add (b : Box) (h : Hd) (v : Body) : (b.add h v).limit = b.limit := by
  unfold Box.add
  split <;> rfl

theorem Box.limit_discard (b : Box) (h : Hd) : (b.discard h).limit = b.limit := by
  unfold Box.discard
  split
  · rfl
  · split <;> rfl

theorem Box.discard_at (b : Box) (h : Hd) (hl : b.limit ≠ sizeMax) (hn : b.look h ≠ none) :
    (b.discard h).look h = some none := by
  unfold Box.discard
  rw [if_neg hl]
  split
  · rename_i v hv
    simp only [Box.look] at hv ⊢
    rw [look_map]
    simp [hv]
  · rename_i hv
    obtain ⟨v, hv'⟩ := Option.ne_none_iff_exists'.mp hn
    cases v with
    | none => exact hv'
    | some b => exact absurd hv' (hv b)

/-- The entry `h` of the outbox of `P` is discarded or will be. -/
def Good (σ : Sys β) (P : Nat) (h : Hd) : Prop :=
  σ.out P h = some none ∨ Item.disc P h ∈ σ.net ∨ (σ.proc P).outbox.limit = sizeMax ∨
    ∃ q k, (σ.proc P).pc = .syncing q h k

/-- Message `h` of `P` has come to `Q`, or is about to. -/
def Come (σ : Sys β) (P Q : Nat) (h : Hd) : Prop :=
  σ.inb Q h ≠ none ∨ σ.rep Q h ∨ ∃ b, Item.addMsg P Q h b ∈ σ.net

structure Clean (S : Comm → Prop) (σ : Sys β) : Prop where
  box : ∀ p, BoxOK (σ.proc p).outbox
  keys : ∀ p h, σ.out p h ≠ none → ∃ X Q n, Ends S X p Q ∧ h = hd X n
  good : ∀ X P Q n, Ends S X P Q → Come σ P Q (hd X n) → Good σ P (hd X n)

/-- Boxes stay in order. -/
theorem Clean.boxes (hS : Sep S) {A : Nat} {L : Item → Prop} {σ τ : Sys β} {t : Ideal β}
    (hi : Inv S σ t) (hc : Clean S σ) (h : Step A L σ τ) :
    (∀ p, BoxOK (τ.proc p).outbox ∧ (τ.proc p).outbox.limit = (σ.proc p).outbox.limit) ∧
    ∀ p h, τ.out p h ≠ none → ∃ X Q n, Ends S X p Q ∧ h = hd X n := by
  have upr : ∀ {p k}, (σ.proc p).pc = .run k → Uses S p k := by
    intro p k hp
    have h1 := (hi.pc p).2
    rw [hp] at h1
    have h1 : t.prog p = k := h1
    exact h1 ▸ hi.use p
  have gen : ∀ (p : Nat) (P : Proc β) (net : List Item), (BoxOK P.outbox ∧
      P.outbox.limit = (σ.proc p).outbox.limit ∧ ∀ h, P.outbox.look h ≠ none →
        σ.out p h ≠ none ∨ ∃ X Q n, Ends S X p Q ∧ h = hd X n) →
      (∀ p', BoxOK (update σ.proc p P p').outbox ∧
        (update σ.proc p P p').outbox.limit = (σ.proc p').outbox.limit) ∧
      ∀ p' h, Sys.out ⟨update σ.proc p P, net⟩ p' h ≠ none → ∃ X Q n, Ends S X p' Q ∧ h = hd X n := by
    intro p P net ⟨h1, h2, h3⟩
    constructor
    · intro p'
      by_cases hp : p' = p
      · subst hp
        simpa using ⟨h1, h2⟩
      · simpa [hp] using hc.box p'
    · intro p' h hn
      by_cases hp : p' = p
      · subst hp
        simp only [Sys.out, update_self] at hn
        rcases h3 h hn with h | h
        · exact hc.keys _ _ h
        · exact h
      · simp only [Sys.out, update_of_ne hp] at hn
        exact hc.keys _ _ hn
  have same : ∀ (p : Nat) (P : Proc β) (net : List Item), P.outbox = (σ.proc p).outbox →
      (∀ p', BoxOK (update σ.proc p P p').outbox ∧
        (update σ.proc p P p').outbox.limit = (σ.proc p').outbox.limit) ∧
      ∀ p' h, Sys.out ⟨update σ.proc p P, net⟩ p' h ≠ none → ∃ X Q n, Ends S X p' Q ∧ h = hd X n := by
    intro p P net e
    refine gen p P net ⟨by rw [e]; exact hc.box p, by rw [e], fun h hn => Or.inl ?_⟩
    rw [e] at hn
    exact hn
  have put : ∀ (p : Nat) (m : Snd), m.OK S p → ∀ (P : Proc β) (net : List Item),
      P.outbox = (((σ.proc p).put m).1).outbox →
      (∀ p', BoxOK (update σ.proc p P p').outbox ∧
        (update σ.proc p P p').outbox.limit = (σ.proc p').outbox.limit) ∧
      ∀ p' h, Sys.out ⟨update σ.proc p P, net⟩ p' h ≠ none → ∃ X Q n, Ends S X p' Q ∧ h = hd X n := by
    intro p m hm P net e
    obtain ⟨q, _, hE⟩ := hm.ends
    have e' : (((σ.proc p).put m).1).outbox
        = (σ.proc p).outbox.add ((σ.proc p).put m).2 m.body := rfl
    refine gen p P net ⟨by rw [e, e']; exact (hc.box p).add _ _,
      by rw [e, e']; exact Box.limit_add _ _ _, fun h hn => ?_⟩
    rw [e, e', Box.look_add] at hn
    split at hn
    · rename_i hh
      right
      refine ⟨m.chan, q, uses ((σ.proc p).flows (hd m.chan 0)), hE, ?_⟩
      rw [hh.1]
      simp only [Proc.put, header_fst]
      rfl
    · exact Or.inl hn
  have dis : ∀ (p : Nat) (hd' : Hd) (P : Proc β) (net : List Item),
      P.outbox = (σ.proc p).outbox.discard hd' →
      (∀ p', BoxOK (update σ.proc p P p').outbox ∧
        (update σ.proc p P p').outbox.limit = (σ.proc p').outbox.limit) ∧
      ∀ p' h, Sys.out ⟨update σ.proc p P, net⟩ p' h ≠ none → ∃ X Q n, Ends S X p' Q ∧ h = hd X n := by
    intro p hd' P net e
    refine gen p P net ⟨by rw [e]; exact (hc.box p).discard _,
      by rw [e]; exact Box.limit_discard _ _, fun h hn => Or.inl ?_⟩
    rw [e] at hn
    rcases out_discard σ p hd' h with e1 | ⟨b, e1, _⟩
    · rwa [e1] at hn
    · simp [e1]
  have idle : ∀ (net : List Item), (∀ p', BoxOK (σ.proc p').outbox ∧
        (σ.proc p').outbox.limit = (σ.proc p').outbox.limit) ∧
      ∀ p' h, Sys.out ⟨σ.proc, net⟩ p' h ≠ none → ∃ X Q n, Ends S X p' Q ∧ h = hd X n :=
    fun net => ⟨fun p => ⟨hc.box p, rfl⟩, hc.keys⟩
  cases h with
  | push p q m k hp hq =>
    cases upr hp with
    | send hm _ => exact put p m hm _ _ rfl
  | unblock p k hp hs => exact same p _ _ rfl
  | sync p q m k hp hq =>
    cases upr hp with
    | ssend hm _ => exact put p m hm _ _ rfl
  | addSend p q h k b hp hb => exact idle _
  | addRecv p q h b hx => exact same q _ _ rfl
  | addDone p q h k hp hx => exact dis p h _ _ rfl
  | syncGone p q h k hp hb => exact same p _ _ rfl
  | ask p q m k hp hq => exact same p _ _ rfl
  | hit p q m h att k b hp ha hb => exact same p _ _ rfl
  | miss p q m h att k hp ha hb => exact same p _ _ rfl
  | fail p q m h att k hp ha => exact same p _ _ rfl
  | deadSend p m k hp hq => exact same p _ _ rfl
  | deadRecv p m k hp hq => exact same p _ _ rfl
  | fork p ms k hp hb hc' => exact same p _ _ rfl
  | bgPush p q m ms hb hc' hq =>
    exact put p m (hi.useB p m (by rw [hi.bg, hb]; simp)) _ _ rfl
  | deadBg p m ms hb hc' hq => exact same p _ _ rfl
  | bgUnblock p hc' hs => exact same p _ _ rfl
  | join p k hp hb hc' => exact same p _ _ rfl
  | trySend p q h b hx hb => exact idle _
  | tryDrop p q h hx hb => exact idle _
  | tryRecv p q h b hx hr => exact same q _ _ rfl
  | tryRefuse p q h b hx hr => exact idle _
  | disc p h hx => exact dis p h _ _ rfl
  | getSend q p h b hx hb => exact idle _
  | getNone q p h hx hb => exact idle _
  | getRecv q h b hx => exact same q _ _ rfl
  | lose x hx hl => exact idle _

/-- An entry which will be discarded still will be after a step. -/
theorem Good.step {A : Nat} {L : Item → Prop} (hL : ∀ p h, ¬ L (.disc p h)) {σ τ : Sys β}
    {t : Ideal β} (hi : Inv S σ t) {P : Nat} {h0 : Hd} (hn : σ.out P h0 ≠ none) (hg : Good σ P h0) (h : Step A L σ τ) : Good τ P h0 := by
  -- process `p` replaced, without discarding or leaving `laik_tcp_messenger_send`
  have rep : ∀ (p : Nat) (Q : Proc β) (net : List Item),
      (Q.outbox = (σ.proc p).outbox ∨ ∃ h v, Q.outbox = (σ.proc p).outbox.add h v) →
      ((∀ q k, (σ.proc p).pc = .syncing q h0 k → Q.pc = .syncing q h0 k)) →
      (Item.disc P h0 ∈ σ.net → Item.disc P h0 ∈ net) →
      Good ⟨update σ.proc p Q, net⟩ P h0 := by
    intro p Q net hb hs hd
    by_cases hp : P = p
    · subst hp
      rcases hg with hg | hg | hg | ⟨q, k, hg⟩
      · left
        simp only [Sys.out, update_self] at hg ⊢
        rcases hb with e | ⟨h, v, e⟩
        · rw [e]
          exact hg
        · rw [e, Box.look_add, if_neg, hg]
          rintro ⟨rfl, e⟩
          rw [hg] at e
          cases e
      · exact Or.inr (Or.inl (hd hg))
      · right; right; left
        simp only [update_self]
        rcases hb with e | ⟨h, v, e⟩
        · rw [e]
          exact hg
        · rw [e, Box.limit_add]
          exact hg
      · right; right; right
        exact ⟨q, k, by simpa using hs q k hg⟩
    · rcases hg with hg | hg | hg | ⟨q, k, hg⟩
      · left
        simpa [Sys.out, hp] using hg
      · exact Or.inr (Or.inl (hd hg))
      · right; right; left
        simpa [hp] using hg
      · right; right; right
        exact ⟨q, k, by simpa [hp] using hg⟩
  have idle : ∀ (net : List Item), (Item.disc P h0 ∈ σ.net → Item.disc P h0 ∈ net) →
      Good ⟨σ.proc, net⟩ P h0 := by
    intro net hd
    rcases hg with hg | hg | hg | hg
    · exact Or.inl hg
    · exact Or.inr (Or.inl (hd hg))
    · exact Or.inr (Or.inr (Or.inl hg))
    · exact Or.inr (Or.inr (Or.inr hg))
  -- an entry of `p` is discarded
  have dis : ∀ (p : Nat) (h : Hd) (Q : Proc β) (net : List Item),
      Q.outbox = (σ.proc p).outbox.discard h →
      ((∀ q k, (σ.proc p).pc = .syncing q h0 k → Q.pc = .syncing q h0 k) ∨ h = h0) →
      (Item.disc P h0 ∈ σ.net → Item.disc P h0 ∈ net ∨ (P = p ∧ h = h0)) →
      Good ⟨update σ.proc p Q, net⟩ P h0 := by
    intro p h Q net hb hs hd
    by_cases hp : P = p
    · subst hp
      by_cases hl : (σ.proc P).outbox.limit = sizeMax
      · right; right; left
        simp only [update_self]
        rw [hb, Box.limit_discard, hl]
      · by_cases hh : h = h0
        · subst hh
          left
          simp only [Sys.out, update_self]
          rw [hb]
          exact Box.discard_at _ _ hl hn
        · rcases hg with hg | hg | hg | ⟨q, k, hg⟩
          · left
            simp only [Sys.out, update_self] at hg ⊢
            rw [hb]
            rcases Box.look_discard (σ.proc P).outbox h h0 with e | ⟨_, _, _, e⟩
            · rw [e, hg]
            · exact e
          · exact Or.inr (Or.inl ((hd hg).resolve_right (fun e => hh e.2)))
          · exact absurd hg hl
          · right; right; right
            exact ⟨q, k, by simpa using (hs.resolve_right hh) q k hg⟩
    · rcases hg with hg | hg | hg | ⟨q, k, hg⟩
      · left
        simpa [Sys.out, hp] using hg
      · exact Or.inr (Or.inl ((hd hg).resolve_right (fun e => hp e.1)))
      · right; right; left
        simpa [hp] using hg
      · right; right; right
        exact ⟨q, k, by simpa [hp] using hg⟩
  have er : ∀ (y : Item), y ≠ .disc P h0 → Item.disc P h0 ∈ σ.net →
      Item.disc P h0 ∈ σ.net.erase y :=
    fun y hy hx => (List.mem_erase_of_ne (Ne.symm hy)).mpr hx
  have ns : ∀ {p : Nat} {pc : Pc β}, (σ.proc p).pc = pc → (∀ q k, pc ≠ .syncing q h0 k) →
      ∀ (Q : Pc β), ∀ q k, (σ.proc p).pc = .syncing q h0 k → Q = .syncing q h0 k := by
    intro p pc e hne Q q k hs
    rw [e] at hs
    exact absurd hs (hne q k)
  cases h with
  | push p q m k hp hq =>
    exact rep p _ _ (Or.inr ⟨_, _, rfl⟩) (ns hp (by simp) _) (fun h => by simp [h])
  | unblock p k hp hs => exact rep p _ _ (Or.inl rfl) (ns hp (by simp) _) (fun h => h)
  | sync p q m k hp hq => exact rep p _ _ (Or.inr ⟨_, _, rfl⟩) (ns hp (by simp) _) (fun h => h)
  | addSend p q h k b hp hb => exact idle _ (fun h => by simp [h])
  | addRecv p q h b hx =>
    exact rep q _ _ (Or.inl rfl) (fun _ _ h => h)
      (fun hx => List.mem_cons_of_mem _ (er _ (by simp) hx))
  | addDone p q h k hp hx =>
    refine dis p h _ _ rfl ?_ (fun hx => Or.inl (er _ (by simp) hx))
    by_cases hh : h = h0
    · exact Or.inr hh
    · left
      intro q' k' e
      rw [hp] at e
      simp only [Pc.syncing.injEq] at e
      exact absurd e.2.1 hh
  | syncGone p q h k hp hb =>
    by_cases hh : P = p ∧ h = h0
    · obtain ⟨rfl, rfl⟩ := hh
      left
      simp only [Sys.out, Sys.setP, update_self]
      obtain ⟨v, hv⟩ := Option.ne_none_iff_exists'.mp hn
      cases v with
      | none => exact hv
      | some b =>
        rw [Box.get_some.mpr hv] at hb
        cases hb
    · by_cases hP : P = p
      · subst hP
        refine rep P _ _ (Or.inl rfl) ?_ (fun h => h)
        intro q' k' e
        rw [hp] at e
        simp only [Pc.syncing.injEq] at e
        exact absurd ⟨rfl, e.2.1⟩ hh
      · rcases hg with hg | hg | hg | ⟨q', k', hg⟩
        · left
          simpa [Sys.out, Sys.setP, hP] using hg
        · exact Or.inr (Or.inl hg)
        · right; right; left
          simpa [Sys.setP, hP] using hg
        · right; right; right
          exact ⟨q', k', by simpa [Sys.setP, hP] using hg⟩
  | ask p q m k hp hq => exact rep p _ _ (Or.inl rfl) (ns hp (by simp) _) (fun h => h)
  | hit p q m h att k b hp ha hb => exact rep p _ _ (Or.inl rfl) (ns hp (by simp) _) (fun h => h)
  | miss p q m h att k hp ha hb =>
    exact rep p _ _ (Or.inl rfl) (ns hp (by simp) _) (fun h => by simp [h])
  | fail p q m h att k hp ha => exact rep p _ _ (Or.inl rfl) (ns hp (by simp) _) (fun h => h)
  | deadSend p m k hp hq =>
    rcases hp with hp | hp
    · exact rep p _ _ (Or.inl rfl) (ns hp (by simp) _) (fun h => h)
    · exact rep p _ _ (Or.inl rfl) (ns hp (by simp) _) (fun h => h)
  | deadRecv p m k hp hq => exact rep p _ _ (Or.inl rfl) (ns hp (by simp) _) (fun h => h)
  | fork p ms k hp hb hc' => exact rep p _ _ (Or.inl rfl) (ns hp (by simp) _) (fun h => h)
  | bgPush p q m ms hb hc' hq =>
    exact rep p _ _ (Or.inr ⟨_, _, rfl⟩) (fun _ _ h => h) (fun h => by simp [h])
  | deadBg p m ms hb hc' hq =>
    exfalso
    have hm : m.OK S p := hi.useB p m (by rw [hi.bg, hb]; simp)
    obtain ⟨q', e, _⟩ := hm.ends
    rw [hq] at e
    cases e
  | bgUnblock p hc' hs => exact rep p _ _ (Or.inl rfl) (fun _ _ h => h) (fun h => h)
  | join p k hp hb hc' => exact rep p _ _ (Or.inl rfl) (ns hp (by simp) _) (fun h => h)
  | trySend p q h b hx hb => exact idle _ (fun hx => List.mem_cons_of_mem _ (er _ (by simp) hx))
  | tryDrop p q h hx hb => exact idle _ (fun hx => er _ (by simp) hx)
  | tryRecv p q h b hx hr =>
    exact rep q _ _ (Or.inl rfl) (fun _ _ h => h)
      (fun hx => List.mem_cons_of_mem _ (er _ (by simp) hx))
  | tryRefuse p q h b hx hr => exact idle _ (fun hx => er _ (by simp) hx)
  | disc p h hx =>
    refine dis p h _ _ rfl (Or.inl (fun _ _ h => h)) (fun hx => ?_)
    by_cases hh : P = p ∧ h = h0
    · exact Or.inr hh
    · refine Or.inl (er _ (fun e => hh ?_) hx)
      simp only [Item.disc.injEq] at e
      exact ⟨e.1.symm, e.2⟩
  | getSend q p h b hx hb =>
    exact idle _ (fun hx => List.mem_cons_of_mem _ (List.mem_cons_of_mem _ (er _ (by simp) hx)))
  | getNone q p h hx hb => exact idle _ (fun hx => er _ (by simp) hx)
  | getRecv q h b hx =>
    exact rep q _ _ (Or.inl rfl) (fun _ _ h => h) (fun hx => er _ (by simp) hx)
  | lose x hx hl =>
    refine idle _ (fun hx => er _ ?_ hx)
    rintro rfl
    exact hL _ _ hl

/-- What comes newly to a process leaves the outbox. -/
theorem Come.step (hS : Sep S) {A : Nat} {L : Item → Prop} {σ τ : Sys β} {t : Ideal β}
    (hi : Inv S σ t) {X : Chan} {P Q n : Nat} (hX : Ends S X P Q) (h : Step A L σ τ)
    (hc : Come τ P Q (hd X n)) : Come σ P Q (hd X n) ∨ Good τ P (hd X n) := by
  -- process `p` replaced without new entries in its inbox, no new items of interest
  have rep : ∀ (p : Nat) {R : Proc β} {net : List Item},
      Come ⟨update σ.proc p R, net⟩ P Q (hd X n) → (∀ h, R.inbox.look h ≠ none → σ.inb p h ≠ none) →
      (∀ q h b, Item.getRep q h b ∈ net → Item.getRep q h b ∈ σ.net) →
      (∀ b, Item.addMsg P Q (hd X n) b ∈ net → Item.addMsg P Q (hd X n) b ∈ σ.net) →
      Come σ P Q (hd X n) := by
    intro p R net hc h1 h2 h3
    rcases hc with hc | ⟨b, hc⟩ | ⟨b, hc⟩
    · left
      by_cases hp : Q = p
      · subst hp
        exact h1 _ (by simpa [Sys.inb] using hc)
      · simpa [Sys.inb, hp] using hc
    · exact Or.inr (Or.inl ⟨b, h2 _ _ _ hc⟩)
    · exact Or.inr (Or.inr ⟨b, h3 _ hc⟩)
  have idle : ∀ {net : List Item}, Come ⟨σ.proc, net⟩ P Q (hd X n) →
      (∀ q h b, Item.getRep q h b ∈ net → Item.getRep q h b ∈ σ.net) →
      (∀ b, Item.addMsg P Q (hd X n) b ∈ net → Item.addMsg P Q (hd X n) b ∈ σ.net) →
      Come σ P Q (hd X n) := by
    intro net hc h2 h3
    rcases hc with hc | ⟨b, hc⟩ | ⟨b, hc⟩
    · exact Or.inl hc
    · exact Or.inr (Or.inl ⟨b, h2 _ _ _ hc⟩)
    · exact Or.inr (Or.inr ⟨b, h3 _ hc⟩)
  have er : ∀ (x y : Item), x ∈ σ.net.erase y → x ∈ σ.net := fun x y hx => List.mem_of_mem_erase hx
  cases h with
  | push p q m k hp hq =>
    exact Or.inl (rep p hc (fun _ h => h) (by simp) (by simp))
  | unblock p k hp hs => exact Or.inl (rep p hc (fun _ h => h) (by simp) (by simp))
  | sync p q m k hp hq => exact Or.inl (rep p hc (fun _ h => h) (by simp) (by simp))
  | addSend p q h k b hp hb =>
    by_cases he : p = P ∧ h = hd X n
    · obtain ⟨rfl, rfl⟩ := he
      exact Or.inr (Or.inr (Or.inr (Or.inr ⟨q, k, hp⟩)))
    · refine Or.inl (idle hc (by simp) (fun b' hb' => ?_))
      refine (List.mem_cons.mp hb').resolve_left ?_
      intro e
      simp only [Item.addMsg.injEq] at e
      exact he ⟨e.1.symm, e.2.2.1.symm⟩
  | addRecv p q h b hx =>
    obtain ⟨Y, n', hY, rfl, hb⟩ := hi.net _ hx
    left
    rcases hc with hc | ⟨b', hc⟩ | ⟨b', hc⟩
    · rcases upd_add (inb_add σ q (hd Y n') b) Q (hd X n) with e | ⟨rfl, e, _, _⟩
      · rw [e] at hc
        exact Or.inl hc
      · obtain ⟨rfl, rfl⟩ := hX.uniq hS hY e (by simp)
        obtain rfl := (hX.det hY).1
        exact Or.inr (Or.inr ⟨b, hx⟩)
    · exact Or.inr (Or.inl ⟨b', er _ _ ((List.mem_cons.mp hc).resolve_left (by simp))⟩)
    · exact Or.inr (Or.inr ⟨b', er _ _ ((List.mem_cons.mp hc).resolve_left (by simp))⟩)
  | addDone p q h k hp hx =>
    exact Or.inl (rep p hc (fun _ h => h) (fun _ _ _ h => er _ _ h) (fun _ h => er _ _ h))
  | syncGone p q h k hp hb => exact Or.inl (rep p hc (fun _ h => h) (by simp) (by simp))
  | ask p q m k hp hq => exact Or.inl (rep p hc (fun _ h => h) (by simp) (by simp))
  | hit p q m h att k b hp ha hb =>
    refine Or.inl (rep p hc (fun h' hn => ?_) (by simp) (by simp))
    rcases Box.look_discard (σ.proc p).inbox h h' with e | ⟨_, v, e, _⟩
    · exact fun e' => hn (e.trans e')
    · simp [Sys.inb, e]
  | miss p q m h att k hp ha hb => exact Or.inl (rep p hc (fun _ h => h) (by simp) (by simp))
  | fail p q m h att k hp ha => exact Or.inl (rep p hc (fun _ h => h) (by simp) (by simp))
  | deadSend p m k hp hq => exact Or.inl (rep p hc (fun _ h => h) (by simp) (by simp))
  | deadRecv p m k hp hq => exact Or.inl (rep p hc (fun _ h => h) (by simp) (by simp))
  | fork p ms k hp hb hc' => exact Or.inl (rep p hc (fun _ h => h) (by simp) (by simp))
  | bgPush p q m ms hb hc' hq => exact Or.inl (rep p hc (fun _ h => h) (by simp) (by simp))
  | deadBg p m ms hb hc' hq => exact Or.inl (rep p hc (fun _ h => h) (by simp) (by simp))
  | bgUnblock p hc' hs => exact Or.inl (rep p hc (fun _ h => h) (by simp) (by simp))
  | join p k hp hb hc' => exact Or.inl (rep p hc (fun _ h => h) (by simp) (by simp))
  | trySend p q h b hx hb =>
    exact Or.inl (idle hc (fun _ _ _ h => er _ _ ((List.mem_cons.mp h).resolve_left (by simp)))
      (fun _ h => er _ _ ((List.mem_cons.mp h).resolve_left (by simp))))
  | tryDrop p q h hx hb =>
    exact Or.inl (idle hc (fun _ _ _ h => er _ _ h) (fun _ h => er _ _ h))
  | tryRecv p q h b hx hr =>
    obtain ⟨Y, n', hY, rfl, hb⟩ := hi.net _ hx
    rcases hc with hc | ⟨b', hc⟩ | ⟨b', hc⟩
    · rcases upd_add (fun h' => Box.look_try (σ.proc q).inbox (hd Y n') h' b) Q (hd X n)
        with e | ⟨rfl, e, _, _⟩
      · rw [e] at hc
        exact Or.inl (Or.inl hc)
      · obtain ⟨rfl, rfl⟩ := hX.uniq hS hY e (by simp)
        obtain rfl := (hX.det hY).1
        exact Or.inr (Or.inr (Or.inl (by simp)))
    · exact Or.inl (Or.inr (Or.inl ⟨b', er _ _ ((List.mem_cons.mp hc).resolve_left (by simp))⟩))
    · exact Or.inl (Or.inr (Or.inr ⟨b', er _ _ ((List.mem_cons.mp hc).resolve_left (by simp))⟩))
  | tryRefuse p q h b hx hr =>
    exact Or.inl (idle hc (fun _ _ _ h => er _ _ h) (fun _ h => er _ _ h))
  | disc p h hx =>
    exact Or.inl (rep p hc (fun _ h => h) (fun _ _ _ h => er _ _ h) (fun _ h => er _ _ h))
  | getSend q p h b hx hb =>
    obtain ⟨Y, n', hY, rfl⟩ := hi.net _ hx
    by_cases he : q = Q ∧ hd Y n' = hd X n
    · obtain ⟨rfl, e⟩ := he
      obtain ⟨rfl, rfl⟩ := hX.uniq hS hY e.symm (by simp)
      obtain rfl := (hX.det hY).1
      exact Or.inr (Or.inr (Or.inl (by simp)))
    · left
      rcases hc with hc | ⟨b', hc⟩ | ⟨b', hc⟩
      · exact Or.inl hc
      · rcases List.mem_cons.mp hc with e | hc
        · simp only [Item.getRep.injEq] at e
          exact absurd ⟨e.1.symm, e.2.1.symm⟩ he
        · exact Or.inr (Or.inl ⟨b', er _ _ ((List.mem_cons.mp hc).resolve_left (by simp))⟩)
      · exact Or.inr (Or.inr ⟨b', er _ _ ((List.mem_cons.mp
          ((List.mem_cons.mp hc).resolve_left (by simp))).resolve_left (by simp))⟩)
  | getNone q p h hx hb =>
    exact Or.inl (idle hc (fun _ _ _ h => er _ _ h) (fun _ h => er _ _ h))
  | getRecv q h b hx =>
    left
    rcases hc with hc | ⟨b', hc⟩ | ⟨b', hc⟩
    · rcases upd_add (inb_add σ q h b) Q (hd X n) with e | ⟨rfl, e, _, _⟩
      · rw [e] at hc
        exact Or.inl hc
      · rw [e]
        exact Or.inr (Or.inl ⟨b, hx⟩)
    · exact Or.inr (Or.inl ⟨b', er _ _ hc⟩)
    · exact Or.inr (Or.inr ⟨b', er _ _ hc⟩)
  | lose x hx hl =>
    exact Or.inl (idle hc (fun _ _ _ h => er _ _ h) (fun _ h => er _ _ h))

/-- What came was sent. -/
theorem Come.sent {σ : Sys β} {t : Ideal β} (hi : Inv S σ t) (hS : Sep S) {X : Chan} {P Q n : Nat}
    (hX : Ends S X P Q) (hc : Come σ P Q (hd X n)) : n < (t.sent X).length := by
  rcases hc with hc | ⟨b, hc⟩ | ⟨b, hc⟩
  · exact (hi.inb _ _ _ n hX).2.1 hc
  · obtain ⟨Y, p, m, hY, e, hb⟩ := hi.net _ hc
    obtain ⟨rfl, rfl⟩ := hX.uniq hS hY e (by simp)
    exact (List.getElem?_eq_some_iff.mp hb).1
  · obtain ⟨Y, m, hY, e, hb⟩ := hi.net _ hc
    obtain ⟨rfl, rfl⟩ := hX.uniq hS hY e (by simp)
    exact (List.getElem?_eq_some_iff.mp hb).1

theorem Clean.step (hS : Sep S) {A : Nat} {L : Item → Prop} (hL : ∀ p h, ¬ L (.disc p h))
    {σ τ : Sys β} {t : Ideal β} (hi : Inv S σ t) (hc : Clean S σ) (h : Step A L σ τ) :
    Clean S τ := by
  obtain ⟨h1, h2⟩ := hc.boxes hS hi h
  refine ⟨fun p => (h1 p).1, h2, fun X P Q n hX hC => ?_⟩
  rcases Come.step hS hi hX h hC with hC | hG
  · exact Good.step hL hi ((hi.out _ _ _ n hX).1.mp (hC.sent hi hS hX)) (hc.good X P Q n hX hC) h
  · exact hG

/-- Everything known about a state. -/
structure All (S : Comm → Prop) (ol : Nat) (σ : Sys β) (t : Ideal β) : Prop where
  inv : Inv S σ t
  dlv : Dlv S σ
  clean : Clean S σ
  lim : ∀ p, (σ.proc p).outbox.limit = ol

theorem All.start (il ol : Nat) {prog : Nat → Prog β} (hu : ∀ p, Uses S p (prog p)) :
    All S ol (Sys.start il ol prog) (Ideal.start prog) where
  inv := Inv.start il ol hu
  dlv := by
    constructor
    · intro X P Q n _ _ h
      simp [Sys.len, Sys.start, uses] at h
    · intro X P Q n _ h
      simp [Sys.start] at h
  clean := by
    refine ⟨fun p => ⟨by simp [Sys.start, Box.new], by simp [Sys.start, Box.new],
      by simp [Sys.start, Box.new]⟩, ?_, ?_⟩
    · intro p h hn
      simp [Sys.out, Sys.start, Box.new, Box.look, look] at hn
    · rintro X P Q n _ (h | ⟨b, h⟩ | ⟨b, h⟩)
      · simp [Sys.inb, Sys.start, Box.new, Box.look, look] at h
      · simp [Sys.start] at h
      · simp [Sys.start] at h
  lim := fun p => rfl

theorem All.step (hS : Sep S) {A ol : Nat} {L : Item → Prop} (hL : ∀ q h b, ¬ L (.getRep q h b))
    (hD : ∀ p h, ¬ L (.disc p h)) {σ τ : Sys β} {t : Ideal β} (ha : All S ol σ t)
    (h : Step A L σ τ) : ∃ u, ISteps t u ∧ All S ol τ u := by
  obtain ⟨u, hu, hi⟩ := ha.inv.step hS h
  refine ⟨u, hu, hi, ha.dlv.step hS hL ha.inv h, ha.clean.step hS hD ha.inv h, fun p => ?_⟩
  rw [((ha.clean.boxes hS ha.inv h).1 p).2, ha.lim]

theorem All.steps (hS : Sep S) {A ol : Nat} {L : Item → Prop} (hL : ∀ q h b, ¬ L (.getRep q h b))
    (hD : ∀ p h, ¬ L (.disc p h)) {σ τ : Sys β} {t : Ideal β} (ha : All S ol σ t)
    (h : Steps A L σ τ) : ∃ u, ISteps t u ∧ All S ol τ u := by
  induction h with
  | refl => exact ⟨t, .refl, ha⟩
  | tail _ hs ih =>
    obtain ⟨u, hu, hi'⟩ := ih
    obtain ⟨v, hv, hi''⟩ := hi'.step hS hL hD hs
    exact ⟨v, hu.trans hv, hi''⟩

end Laik.Mm
