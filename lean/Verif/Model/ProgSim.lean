import Verif.Model.CollMain
/-!
# Programs which do the same for the messages which arrive

A sequence of events fixes which messages are sent. The program of a process may look at a message
and then do different things. It is enough if it agrees with the sequence for the messages
which really arrive.
-/

namespace Laik.Mm

open Function

variable {β : Type} {A : Nat} {L : Item → Prop}

/-- Program `b` does the same as `a`, until `a` has an error. -/
inductive Le : Prog β → Prog β → Prop
  | err (b : Prog β) : Le .err b
  | ret (x : β) : Le (.ret x) (.ret x)
  | send (m : Snd) {k k' : Prog β} (h : Le k k') : Le (.send m k) (.send m k')
  | ssend (m : Snd) {k k' : Prog β} (h : Le k k') : Le (.ssend m k) (.ssend m k')
  | recv (m : Rcv) {k k' : Body → Prog β} (h : ∀ b, Le (k b) (k' b)) : Le (.recv m k) (.recv m k')
  | fork (ms : List Snd) {k k' : Prog β} (h : Le k k') : Le (.fork ms k) (.fork ms k')
  | join {k k' : Prog β} (h : Le k k') : Le (.join k) (.join k')

/-- `Le` in one of both directions. -/
def LeD (d : Bool) (a b : Prog β) : Prop := if d then Le a b else Le b a

/-- Programs with the same first operation. -/
inductive Same (D : Prog β → Prog β → Prop) : Prog β → Prog β → Prop
  | ret (x : β) : Same D (.ret x) (.ret x)
  | send (m : Snd) {k k' : Prog β} (h : D k k') : Same D (.send m k) (.send m k')
  | ssend (m : Snd) {k k' : Prog β} (h : D k k') : Same D (.ssend m k) (.ssend m k')
  | recv (m : Rcv) {k k' : Body → Prog β} (h : ∀ b, D (k b) (k' b)) : Same D (.recv m k) (.recv m k')
  | fork (ms : List Snd) {k k' : Prog β} (h : D k k') : Same D (.fork ms k) (.fork ms k')
  | join {k k' : Prog β} (h : D k k') : Same D (.join k) (.join k')

theorem LeD.same {d : Bool} {a b : Prog β} (h : LeD d a b) (ha : d = true → a ≠ .err) (hb : d = false → b ≠ .err) :
    Same (LeD d) a b := by
  cases d with
  | true =>
    have h : Le a b := h
    cases h with
    | err b => exact absurd rfl (ha rfl)
    | ret x => exact .ret x
    | send m h0 => exact .send m h0
    | ssend m h0 => exact .ssend m h0
    | recv m h0 => exact .recv m h0
    | fork ms h0 => exact .fork ms h0
    | join h0 => exact .join h0
  | false =>
    have h : Le b a := h
    cases h with
    | err b => exact absurd rfl (hb rfl)
    | ret x => exact .ret x
    | send m h0 => exact .send m h0
    | ssend m h0 => exact .ssend m h0
    | recv m h0 => exact .recv m h0
    | fork ms h0 => exact .fork ms h0
    | join h0 => exact .join h0

/-- The same for what a thread is doing. -/
inductive PcR (D : Prog β → Prog β → Prop) : Pc β → Pc β → Prop
  | run {k k' : Prog β} (h : D k k') : PcR D (.run k) (.run k')
  | blocked {k k' : Prog β} (h : D k k') : PcR D (.blocked k) (.blocked k')
  | getting (m : Rcv) (q : Nat) (hd : Hd) (att : Nat) {k k' : Body → Prog β} (h : ∀ b, D (k b) (k' b)) :
      PcR D (.getting m q hd att k) (.getting m q hd att k')
  | syncing (q : Nat) (hd : Hd) {k k' : Prog β} (h : D k k') : PcR D (.syncing q hd k) (.syncing q hd k')
  | failed (m : Rcv) {k k' : Body → Prog β} (h : ∀ b, D (k b) (k' b)) : PcR D (.failed m k) (.failed m k')
  | dead : PcR D .dead .dead

/-- State with other programs. -/
def Sys.withPc (τ : Sys β) (f : Nat → Pc β) : Sys β := ⟨fun p => { τ.proc p with pc := f p }, τ.net⟩

theorem withPc_upd (g : Nat → Proc β) (net : List Item) (f : Nat → Pc β) (p : Nat) (P : Proc β) (x : Pc β) :
    (⟨update g p P, net⟩ : Sys β).withPc (update f p x) =
      ⟨update (fun p => { g p with pc := f p }) p { P with pc := x }, net⟩ := by
  unfold Sys.withPc
  congr 1
  funext r
  by_cases e : r = p
  · subst e; simp
  · simp [e]

/-- A step is possible with the other programs, too. -/
theorem sim_step {d : Bool} {τ υ : Sys β} {f : Nat → Pc β} (hR : ∀ p, PcR (LeD d) (f p) (τ.proc p).pc)
    (ha : d = true → ∀ p, f p ≠ .run .err) (hb : d = false → ∀ p, (τ.proc p).pc ≠ .run .err) (hs : Step A L τ υ) :
    ∃ f', Step A L (τ.withPc f) (υ.withPc f') ∧ ∀ p, PcR (LeD d) (f' p) (υ.proc p).pc := by
  -- the first operation of the running thread
  have hrun : ∀ {p k}, (τ.proc p).pc = .run k → ∃ k', f p = .run k' ∧ Same (LeD d) k' k := by
    intro p k h
    have h1 := hR p
    have h2 := ha
    have h3 := hb
    rw [h] at h1
    generalize e : f p = x at h1
    cases h1 with
    | run h1 =>
      refine ⟨_, rfl, h1.same (fun hd hk => h2 hd p ?_) fun hd hk => h3 hd p ?_⟩
      · rw [e, hk]
      · rw [h, hk]
  -- thread `p` goes on, other threads do as before
  have upd : ∀ {p P net x}, PcR (LeD d) x P.pc →
      ∀ r, PcR (LeD d) (update f p x r) ((⟨update τ.proc p P, net⟩ : Sys β).proc r).pc := by
    intro p P net x h r
    by_cases e : r = p
    · subst e; simpa using h
    · simpa [e] using hR r
  cases hs with
  | push p q m k h hq =>
    obtain ⟨k', e, hk⟩ := hrun h
    cases hk with
    | send _ hk =>
      refine ⟨update f p (.blocked _), ?_, upd (.blocked hk)⟩
      rw [withPc_upd]
      exact .push (τ.withPc f) p q m _ e hq
  | unblock p k h hs =>
    have h1 := hR p
    rw [h] at h1
    generalize e : f p = x at h1
    cases h1 with
    | blocked hk =>
      refine ⟨update f p (.run _), ?_, upd (.run hk)⟩
      rw [Sys.setP, withPc_upd]
      exact .unblock (τ.withPc f) p _ e hs
  | sync p q m k h hq =>
    obtain ⟨k', e, hk⟩ := hrun h
    cases hk with
    | ssend _ hk =>
      refine ⟨update f p (.syncing q _ _), ?_, upd (.syncing _ _ hk)⟩
      rw [Sys.setP, withPc_upd]
      exact .sync (τ.withPc f) p q m _ e hq
  | addSend p q hd k b h hb =>
    have h1 := hR p
    rw [h] at h1
    generalize e : f p = x at h1
    cases h1 with
    | syncing _ _ hk => exact ⟨f, .addSend (τ.withPc f) p q hd _ b e hb, hR⟩
  | addRecv p q hd b h =>
    refine ⟨update f q (f q), ?_, upd (hR q)⟩
    rw [withPc_upd]
    exact .addRecv (τ.withPc f) p q hd b h
  | addDone p q hd k h hn =>
    have h1 := hR p
    rw [h] at h1
    generalize e : f p = x at h1
    cases h1 with
    | syncing _ _ hk =>
      refine ⟨update f p (.run _), ?_, upd (.run hk)⟩
      rw [withPc_upd]
      exact .addDone (τ.withPc f) p q hd _ e hn
  | syncGone p q hd k h hb =>
    have h1 := hR p
    rw [h] at h1
    generalize e : f p = x at h1
    cases h1 with
    | syncing _ _ hk =>
      refine ⟨update f p (.run _), ?_, upd (.run hk)⟩
      rw [Sys.setP, withPc_upd]
      exact .syncGone (τ.withPc f) p q hd _ e hb
  | ask p q m k h hq =>
    obtain ⟨k', e, hk⟩ := hrun h
    cases hk with
    | recv _ hk =>
      refine ⟨update f p (.getting m q _ 0 _), ?_, upd (.getting _ _ _ _ hk)⟩
      rw [Sys.setP, withPc_upd]
      exact .ask (τ.withPc f) p q m _ e hq
  | hit p q m hd att k b h ha hb =>
    have h1 := hR p
    rw [h] at h1
    generalize e : f p = x at h1
    cases h1 with
    | getting _ _ _ _ hk =>
      refine ⟨update f p (.run _), ?_, upd (.run (hk b))⟩
      rw [Sys.setP, withPc_upd]
      exact .hit (τ.withPc f) p q m hd att _ b e ha hb
  | miss p q m hd att k h ha hb =>
    have h1 := hR p
    rw [h] at h1
    generalize e : f p = x at h1
    cases h1 with
    | getting _ _ _ _ hk =>
      refine ⟨update f p (.getting m q hd (att + 1) _), ?_, upd (.getting _ _ _ _ hk)⟩
      rw [withPc_upd]
      exact .miss (τ.withPc f) p q m hd att _ e ha hb
  | fail p q m hd att k h ha =>
    have h1 := hR p
    rw [h] at h1
    generalize e : f p = x at h1
    cases h1 with
    | getting _ _ _ _ hk =>
      refine ⟨update f p (.failed m _), ?_, upd (.failed _ hk)⟩
      rw [Sys.setP, withPc_upd]
      exact .fail (τ.withPc f) p q m hd att _ e ha
  | deadSend p m k h hq =>
    refine ⟨update f p .dead, ?_, upd .dead⟩
    rw [Sys.setP, withPc_upd]
    rcases h with h | h
    · obtain ⟨k', e, hk⟩ := hrun h
      cases hk with
      | send _ hk => exact .deadSend (τ.withPc f) p m _ (.inl e) hq
    · obtain ⟨k', e, hk⟩ := hrun h
      cases hk with
      | ssend _ hk => exact .deadSend (τ.withPc f) p m _ (.inr e) hq
  | deadRecv p m k h hq =>
    obtain ⟨k', e, hk⟩ := hrun h
    cases hk with
    | recv _ hk =>
      refine ⟨update f p .dead, ?_, upd .dead⟩
      rw [Sys.setP, withPc_upd]
      exact .deadRecv (τ.withPc f) p m _ e hq
  | fork p ms k h hb hc =>
    obtain ⟨k', e, hk⟩ := hrun h
    cases hk with
    | fork _ hk =>
      refine ⟨update f p (.run _), ?_, upd (.run hk)⟩
      rw [Sys.setP, withPc_upd]
      exact .fork (τ.withPc f) p ms _ e hb hc
  | bgPush p q m ms h hc hq =>
    refine ⟨update f p (f p), ?_, upd (hR p)⟩
    rw [withPc_upd]
    exact .bgPush (τ.withPc f) p q m ms h hc hq
  | deadBg p m ms h hc hq =>
    refine ⟨update f p .dead, ?_, upd .dead⟩
    rw [Sys.setP, withPc_upd]
    exact .deadBg (τ.withPc f) p m ms h hc hq
  | bgUnblock p hc hs =>
    refine ⟨update f p (f p), ?_, upd (hR p)⟩
    rw [Sys.setP, withPc_upd]
    exact .bgUnblock (τ.withPc f) p hc hs
  | join p k h hb hc =>
    obtain ⟨k', e, hk⟩ := hrun h
    cases hk with
    | join hk =>
      refine ⟨update f p (.run _), ?_, upd (.run hk)⟩
      rw [Sys.setP, withPc_upd]
      exact .join (τ.withPc f) p _ e hb hc
  | trySend p q hd b h hb => exact ⟨f, .trySend (τ.withPc f) p q hd b h hb, hR⟩
  | tryDrop p q hd h hb => exact ⟨f, .tryDrop (τ.withPc f) p q hd h hb, hR⟩
  | tryRecv p q hd b h hr =>
    refine ⟨update f q (f q), ?_, upd (hR q)⟩
    rw [withPc_upd]
    exact .tryRecv (τ.withPc f) p q hd b h hr
  | tryRefuse p q hd b h hr => exact ⟨f, .tryRefuse (τ.withPc f) p q hd b h hr, hR⟩
  | disc p hd h =>
    refine ⟨update f p (f p), ?_, upd (hR p)⟩
    rw [withPc_upd]
    exact .disc (τ.withPc f) p hd h
  | getSend q p hd b h hb => exact ⟨f, .getSend (τ.withPc f) q p hd b h hb, hR⟩
  | getNone q p hd h hb => exact ⟨f, .getNone (τ.withPc f) q p hd h hb, hR⟩
  | getRecv q hd b h =>
    refine ⟨update f q (f q), ?_, upd (hR q)⟩
    rw [withPc_upd]
    exact .getRecv (τ.withPc f) q hd b h
  | lose x h hl => exact ⟨f, .lose (τ.withPc f) x h hl, hR⟩

theorem Step.mono {L' : Item → Prop} (hL : ∀ x, L x → L' x) {τ υ : Sys β} (h : Step A L τ υ) : Step A L' τ υ := by
  cases h with
  | push p q m k h hq => exact .push _ p q m k h hq
  | unblock p k h hs => exact .unblock _ p k h hs
  | sync p q m k h hq => exact .sync _ p q m k h hq
  | addSend p q hd k b h hb => exact .addSend _ p q hd k b h hb
  | addRecv p q hd b h => exact .addRecv _ p q hd b h
  | addDone p q hd k h hn => exact .addDone _ p q hd k h hn
  | syncGone p q hd k h hb => exact .syncGone _ p q hd k h hb
  | ask p q m k h hq => exact .ask _ p q m k h hq
  | hit p q m hd att k b h ha hb => exact .hit _ p q m hd att k b h ha hb
  | miss p q m hd att k h ha hb => exact .miss _ p q m hd att k h ha hb
  | fail p q m hd att k h ha => exact .fail _ p q m hd att k h ha
  | deadSend p m k h hq => exact .deadSend _ p m k h hq
  | deadRecv p m k h hq => exact .deadRecv _ p m k h hq
  | fork p ms k h hb hc => exact .fork _ p ms k h hb hc
  | bgPush p q m ms h hc hq => exact .bgPush _ p q m ms h hc hq
  | deadBg p m ms h hc hq => exact .deadBg _ p m ms h hc hq
  | bgUnblock p hc hs => exact .bgUnblock _ p hc hs
  | join p k h hb hc => exact .join _ p k h hb hc
  | trySend p q hd b h hb => exact .trySend _ p q hd b h hb
  | tryDrop p q hd h hb => exact .tryDrop _ p q hd h hb
  | tryRecv p q hd b h hr => exact .tryRecv _ p q hd b h hr
  | tryRefuse p q hd b h hr => exact .tryRefuse _ p q hd b h hr
  | disc p hd h => exact .disc _ p hd h
  | getSend q p hd b h hb => exact .getSend _ q p hd b h hb
  | getNone q p hd h hb => exact .getNone _ q p hd h hb
  | getRecv q hd b h => exact .getRecv _ q hd b h
  | lose x h hl => exact .lose _ x h (hL x hl)

theorem Steps.mono {L' : Item → Prop} (hL : ∀ x, L x → L' x) {τ υ : Sys β} (h : Steps A L τ υ) : Steps A L' τ υ := by
  induction h with
  | refl => exact .refl
  | tail _ hs ih => exact ih.tail (hs.mono hL)

variable {S : Comm → Prop} {es : List (Ev β)} {s t : Nat → β} {prog : Nat → Prog β}

/-- An execution with the programs of a sequence of events for each execution. -/
theorem sim_reach (hS : Sep S) (hw : WF S none es) (hr : run es s = some t) (hp : ∀ p, Le (proj p es (s p)) (prog p))
    {il ol : Nat} {τ : Sys β} (h : Steps A L (Sys.start il ol prog) τ) :
    ∃ f, Steps A L (Sys.start il ol fun p => proj p es (s p)) (τ.withPc f) ∧ ∀ p, PcR (LeD true) (f p) (τ.proc p).pc := by
  induction h with
  | refl => exact ⟨fun p => .run (proj p es (s p)), .refl, fun p => .run (hp p)⟩
  | tail _ hs ih =>
    obtain ⟨f, h1, h2⟩ := ih
    obtain ⟨f', h3, h4⟩ := sim_step h2 (fun _ p => (choreo_results hS hw hr h1 p).2.1) (fun e => nomatch e) hs
    exact ⟨f', h1.tail h3, h4⟩

theorem sim_results (hS : Sep S) (hw : WF S none es) (hr : run es s = some t) (hp : ∀ p, Le (proj p es (s p)) (prog p))
    {il ol : Nat} {τ : Sys β} (h : Steps A L (Sys.start il ol prog) τ) (p : Nat) :
    (τ.proc p).pc ≠ .dead ∧ (τ.proc p).pc ≠ .run .err ∧ ∀ x, (τ.proc p).pc = .run (.ret x) → x = t p := by
  obtain ⟨f, h1, h2⟩ := sim_reach hS hw hr hp h
  obtain ⟨g1, g2, g3⟩ := choreo_results hS hw hr h1 p
  have h2 := h2 p
  change f p ≠ _ at g1
  change f p ≠ _ at g2
  change ∀ x, f p = _ → _ at g3
  revert h2 g1 g2 g3
  generalize f p = y
  generalize (τ.proc p).pc = z
  intro h2 g1 g2 g3
  refine ⟨?_, ?_, ?_⟩
  · rintro rfl
    cases h2
    exact g1 rfl
  · rintro rfl
    cases h2 with
    | run h =>
      have h : Le _ _ := h
      cases h
      exact g2 rfl
  · rintro x rfl
    cases h2 with
    | run h =>
      have h : Le _ _ := h
      cases h with
      | err => exact absurd rfl g2
      | ret => exact g3 x rfl

theorem sim_completes (hS : Sep S) {N : Nat} (hN : ∀ c, S c → ∀ p ∈ c.tasks, p < N) (hw : WF S none es)
    (hr : run es s = some t) (hp : ∀ p, Le (proj p es (s p)) (prog p)) (hA : 2 ≤ A)
    (hL : ∀ q h b, ¬ L (.getRep q h b)) (hD : ∀ p h, ¬ L (.disc p h)) {il ol : Nat} {τ : Sys β}
    (h : Steps A L (Sys.start il ol prog) τ) (hf : ∀ p, (τ.proc p).pc.fine A) :
    ∃ υ, Steps A (fun _ => False) τ υ ∧ ∀ p, p < N → (υ.proc p).pc = .run (.ret (t p)) := by
  obtain ⟨f, h1, h2⟩ := sim_reach hS hw hr hp h
  have hf' : ∀ p, ((τ.withPc f).proc p).pc.fine A := by
    intro p
    have h2 := h2 p
    have hf := hf p
    change (f p).fine A
    revert h2 hf
    generalize f p = y
    generalize (τ.proc p).pc = z
    intro h2 hf
    cases h2 <;> exact hf
  obtain ⟨υ', h3, h4⟩ := choreo_completes hS hN hw hr hA hL hD h1 hf'
  -- back
  have key : ∀ {υ' : Sys β}, Steps A (fun _ => False) (τ.withPc f) υ' →
      ∃ υ : Sys β, Steps A (fun _ => False) τ υ ∧ ∃ g, υ = υ'.withPc g ∧ ∀ p, PcR (LeD false) (g p) (υ'.proc p).pc := by
    intro υ' h
    induction h with
    | refl =>
      refine ⟨τ, .refl, fun p => (τ.proc p).pc, rfl, fun p => ?_⟩
      have h2 := h2 p
      change PcR _ (τ.proc p).pc (f p)
      revert h2
      generalize f p = y
      generalize (τ.proc p).pc = z
      intro h2
      cases h2 with
      | run h => exact .run h
      | blocked h => exact .blocked h
      | getting _ _ _ _ h => exact .getting _ _ _ _ h
      | syncing _ _ h => exact .syncing _ _ h
      | failed _ h => exact .failed _ h
      | dead => exact .dead
    | tail hp hs ih =>
      obtain ⟨υ, k1, g, k2, k3⟩ := ih
      obtain ⟨g', k4, k5⟩ := sim_step k3 (fun e => nomatch e)
        (fun _ p => (choreo_results hS hw hr (h1.trans (hp.mono fun _ h => h.elim)) p).2.1) hs
      rw [← k2] at k4
      exact ⟨_, k1.tail k4, g', rfl, k5⟩
  obtain ⟨υ, k1, g, k2, k3⟩ := key h3
  refine ⟨υ, k1, fun p hp => ?_⟩
  have k4 := k3 p
  rw [h4 p hp] at k4
  have e : (υ.proc p).pc = g p := by rw [k2]; rfl
  rw [e]
  revert k4
  generalize g p = y
  intro k4
  cases k4 with
  | run h =>
    have h : Le _ _ := h
    cases h
    rfl

end Laik.Mm
