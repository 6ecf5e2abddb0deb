import Verif.Model.MiniMpiProgress
/-!
# C53: message passing of the TCP backend based on GLib

The library below the old TCP backend promises a first-in-first-out channel for
each communicator, pair of ranks, kind of message and tag. Messages are found by
a header which has neither the communicator nor the processes in it, only a
generation, ranks, kind, tag and a serial number.
-/

namespace Laik.Mm

open Function

variable {β : Type}

/-- The threads of `τ` are where those of `u` (with ideal channels) are; none aborted. -/
def Shows (τ : Sys β) (u : Ideal β) : Prop :=
  ∀ p, (τ.proc p).pc ≠ .dead ∧ u.prog p = (τ.proc p).pc.abs ∧ u.bg p = (τ.proc p).bg

theorem Inv.shows {S : Comm → Prop} {τ : Sys β} {u : Ideal β} (h : Inv S τ u) : Shows τ u :=
  fun p => ⟨(h.pc p).1, (h.pc p).2, h.bg p⟩

/-- **C53**, safety: if communicators of the same generation have no process in common,
every execution is one with ideal channels, whatever the order of messages, whatever is
lost, and however small inboxes and outboxes are. -/
theorem C53_channels_partial {S : Comm → Prop} (hS : Sep S) {A il ol : Nat} {L : Item → Prop}
    {prog : Nat → Prog β} (hu : ∀ p, Uses S p (prog p)) {τ : Sys β}
    (h : Steps A L (Sys.start il ol prog) τ) :
    ∃ u, ISteps (Ideal.start prog) u ∧ Shows τ u := by
  obtain ⟨u, h1, h2⟩ := (Inv.start il ol hu).steps hS h
  exact ⟨u, h1, h2.shows⟩

/-- **C53**, nothing is lost: if answers to GET and notes that a message was taken are not
lost, then a receive of a message which was sent can be done, with no other thread of the
application having to do anything, as long as attempts are left. -/
theorem C53_received {S : Comm → Prop} (hS : Sep S) {A il ol : Nat} {L : Item → Prop}
    (hL : ∀ q h b, ¬ L (.getRep q h b)) (hD : ∀ p h, ¬ L (.disc p h))
    {prog : Nat → Prog β} (hu : ∀ p, Uses S p (prog p)) {τ : Sys β}
    (h : Steps A L (Sys.start il ol prog) τ) :
    ∃ u, ISteps (Ideal.start prog) u ∧ Shows τ u ∧
      ∀ p m q h att k b, (τ.proc p).pc = .getting m q h att k → att + 1 < A →
        (u.sent m.chan)[u.rd m.chan]? = some b →
        ∃ υ, Steps A (fun _ => False) τ υ ∧ (υ.proc p).pc = .run (k b) ∧ Alone τ υ p := by
  obtain ⟨u, h1, h2⟩ := (All.start il ol hu).steps hS hL hD h
  exact ⟨u, h1, h2.inv.shows, fun p m q h att k b hp ha hb => h2.dlv.get hS h2.inv hp ha hb⟩

/-- **C53**, sends end: if all messages of a process were received, a send of it which
is blocked as the outbox was full can be done; also one in the background. -/
theorem C53_sent {S : Comm → Prop} (hS : Sep S) {A il ol : Nat} {L : Item → Prop}
    (hL : ∀ q h b, ¬ L (.getRep q h b)) (hD : ∀ p h, ¬ L (.disc p h))
    {prog : Nat → Prog β} (hu : ∀ p, Uses S p (prog p)) {τ : Sys β}
    (h : Steps A L (Sys.start il ol prog) τ) :
    ∃ u, ISteps (Ideal.start prog) u ∧ Shows τ u ∧
      ∀ p, (∀ X Q, Ends S X p Q → u.rd X = (u.sent X).length) →
        (∀ k, (τ.proc p).pc = .blocked k →
          ∃ υ, Steps A (fun _ => False) τ υ ∧ (υ.proc p).pc = .run k ∧
            (υ.proc p).bgBlk = (τ.proc p).bgBlk ∧ Alone τ υ p) ∧
        ((τ.proc p).bgBlk = true → (∀ q h k, (τ.proc p).pc ≠ .syncing q h k) →
          ∃ υ, Steps A (fun _ => False) τ υ ∧ (υ.proc p).bgBlk = false ∧
            (υ.proc p).pc = (τ.proc p).pc ∧ Alone τ υ p) := by
  obtain ⟨u, h1, h2⟩ := (All.start il ol hu).steps hS hL hD h
  exact ⟨u, h1, h2.inv.shows, fun p hr => ⟨fun k hp => h2.unblock hp hr,
    fun hb hns => h2.bgUnblock hb hns hr⟩⟩

/-- **C53**, synchronous sends: they always can be done; and when one returns, the message
is in the inbox of the receiver (or was taken from there already), or is just coming
there as answer to a GET. -/
theorem C53_synchronous {S : Comm → Prop} (hS : Sep S) {A il ol : Nat} {L : Item → Prop}
    (hL : ∀ q h b, ¬ L (.getRep q h b)) (hD : ∀ p h, ¬ L (.disc p h))
    {prog : Nat → Prog β} (hu : ∀ p, Uses S p (prog p)) {τ : Sys β}
    (h : Steps A L (Sys.start il ol prog) τ) {p q : Nat} {hd : Hd} {k : Prog β}
    (hp : (τ.proc p).pc = .syncing q hd k) :
    (∃ υ, Steps A (fun _ => False) τ υ ∧ (υ.proc p).pc = .run k ∧
      (υ.proc p).bgBlk = (τ.proc p).bgBlk ∧ Alone τ υ p) ∧
    ∀ υ, Step A L τ υ → (υ.proc p).pc = .run k →
      (τ.proc q).inbox.look hd ≠ none ∨ ∃ b, Item.getRep q hd b ∈ τ.net := by
  obtain ⟨u, h1, h2⟩ := (All.start il ol hu).steps hS hL hD h
  exact ⟨sync_done hS h2.inv hp, fun υ hs hk => sync_come h2.inv h2.dlv hp hs hk⟩

/-! ### which communicators can be used -/

/-- Communicators made by dup and split from one: `kids c d`: `d` was made from `c`. -/
inductive Made (w : Comm) (kids : Comm → Comm → Prop) : Comm → Prop
  | top : Made w kids w
  | kid {c d : Comm} (h : Made w kids c) (hk : kids c d) : Made w kids d

/-- **C53**: if all communicators made from the same one have different processes (as is
the case for one split, or if each communicator is split at most once), the condition
of the other theorems holds. Generations are given by minimpi.c 356 and 499. -/
theorem C53_tree {w : Comm} {kids : Comm → Comm → Prop} (hw : w.tasks.Nodup)
    (hg : ∀ c d, kids c d → d.gen = c.gen + 1) (hn : ∀ c d, kids c d → d.tasks.Nodup)
    (hs : ∀ c d, kids c d → ∀ p ∈ d.tasks, p ∈ c.tasks)
    (hd : ∀ c d e p, kids c d → kids c e → p ∈ d.tasks → p ∈ e.tasks → d = e) :
    Sep (Made w kids) := by
  have hge : ∀ c, Made w kids c → w.gen ≤ c.gen ∧ (w.gen = c.gen → c = w) := by
    intro c hc
    induction hc with
    | top => exact ⟨Nat.le_refl _, fun _ => rfl⟩
    | kid _ hk ih =>
      have := hg _ _ hk
      exact ⟨by omega, fun e => by omega⟩
  refine ⟨?_, ?_⟩
  · intro c hc
    cases hc with
    | top => exact hw
    | kid _ hk => exact hn _ _ hk
  · intro a b p ha
    induction ha generalizing b with
    | top =>
      intro hb e _ _
      exact ((hge b hb).2 e).symm
    | @kid c d hc hk ih =>
      intro hb e pa pb
      cases hb with
      | top =>
        have := hge c hc
        have := hg _ _ hk
        omega
      | @kid c' _ hc' hk' =>
        have g1 := hg _ _ hk
        have g2 := hg _ _ hk'
        obtain rfl := ih c' hc' (by omega) (hs _ _ hk p pa) (hs _ _ hk' p pb)
        exact hd _ _ _ p hk hk' pa pb

/-! ### an execution -/

/-- `MPI_COMM_WORLD` of two processes, as LAIK gets it by `MPI_Comm_dup`. -/
def w2 : Comm := ⟨0, [0, 1], 1⟩

def p2 (b c : Body) : Nat → Prog (List Body)
  | 0 => .send ⟨w2, 0, 0, 1, 1, b⟩ (.send ⟨w2, 0, 0, 1, 1, c⟩ (.ret []))
  | 1 => .recv ⟨w2, 1, 0, 0, 1⟩ fun x => .recv ⟨w2, 1, 0, 0, 1⟩ fun y => .ret [x, y]
  | _ => .ret []

theorem p2_uses (b c : Body) (p : Nat) : Uses (· = w2) p (p2 b c p) := by
  match p with
  | 0 =>
    exact .send ⟨rfl, rfl, Nat.lt_add_one 1, Nat.one_ne_zero⟩
      (.send ⟨rfl, rfl, Nat.lt_add_one 1, Nat.one_ne_zero⟩ (.ret _))
  | 1 =>
    exact .recv ⟨rfl, rfl, by decide, by decide⟩ fun _ =>
      .recv ⟨rfl, rfl, by decide, by decide⟩ fun _ => .ret _
  | _ + 2 => exact .ret _

theorem w2_sep : Sep (· = w2) :=
  ⟨fun c h => by subst h; decide, fun a b _ ha hb _ _ _ => by rw [ha, hb]⟩

/-- The second message arrives first, the first one has to be asked for. -/
theorem p2_run : ∃ τ : Sys (List Body), Steps 100 (fun _ => False)
    (Sys.start 10 10 (p2 [1] [2])) τ ∧ (τ.proc 1).pc = .run (.ret [[1], [2]]) := by
  have h : Steps 100 (fun _ => False) (Sys.start 10 10 (p2 [1] [2])) _ := .refl
  have h := h.tail (.push _ 0 1 _ _ rfl rfl)
  have h := h.tail (.unblock _ 0 _ rfl (by decide))
  have h := h.tail (.push _ 0 1 _ _ rfl rfl)
  have h := h.tail (.trySend _ 0 1 ⟨1, 0, 0, 1, 1, 1⟩ [2] (by decide) (by decide))
  have h := h.tail (.tryRecv _ 0 1 ⟨1, 0, 0, 1, 1, 1⟩ [2] (by decide) (by decide))
  have h := h.tail (.ask _ 1 0 _ _ rfl rfl)
  have h := h.tail (.miss _ 1 0 _ _ _ _ rfl (by decide) (by decide))
  have h := h.tail (.getSend _ 1 0 ⟨1, 0, 0, 1, 1, 0⟩ [1] (by decide) (by decide))
  have h := h.tail (.getRecv _ 1 ⟨1, 0, 0, 1, 1, 0⟩ [1] (by decide))
  have h := h.tail (.hit _ 1 0 _ _ _ _ [1] rfl (by decide) (by decide))
  have h := h.tail (.ask _ 1 0 _ _ rfl rfl)
  have h := h.tail (.hit _ 1 0 _ _ _ _ [2] rfl (by decide) (by decide))
  exact ⟨_, h, rfl⟩

/-- The hypotheses of the theorems hold in this execution. -/
example : ∃ τ : Sys (List Body), (τ.proc 1).pc = .run (.ret [[1], [2]]) ∧
    ∃ u, ISteps (Ideal.start (p2 [1] [2])) u ∧ Shows τ u := by
  obtain ⟨τ, h1, h2⟩ := p2_run
  exact ⟨τ, h2, C53_channels_partial w2_sep (p2_uses _ _) h1⟩

/-- A receive which is waiting, with the message only in the outbox of the sender. -/
example : ∃ τ : Sys (List Body), Steps 100 (fun _ => False) (Sys.start 10 10 (p2 [1] [2])) τ ∧
    ∃ k, (τ.proc 1).pc = .getting ⟨w2, 1, 0, 0, 1⟩ 0 ⟨1, 0, 0, 1, 1, 0⟩ 0 k ∧
      ∃ u, ISteps (Ideal.start (p2 [1] [2])) u ∧
        ((u.sent ⟨w2, 0, 0, 1, 1⟩)[u.rd ⟨w2, 0, 0, 1, 1⟩]? = some [1]) := by
  have h : Steps 100 (fun _ => False) (Sys.start 10 10 (p2 [1] [2])) _ := .refl
  have h := h.tail (.push _ 0 1 _ _ rfl rfl)
  have h := h.tail (.ask _ 1 0 _ _ rfl rfl)
  refine ⟨_, h, _, rfl, _, (IStep.send _ 0 _ _ rfl).steps, rfl⟩

/-- A send which is blocked although everything was received: outboxes of one byte. -/
example : ∃ τ : Sys (List Body), Steps 100 (fun _ => False) (Sys.start 10 0 (p2 [1] [2])) τ ∧
    ∃ k, (τ.proc 0).pc = .blocked k ∧ (τ.proc 0).outbox.size > (τ.proc 0).outbox.limit ∧
      (τ.proc 1).inbox.look ⟨1, 0, 0, 1, 1, 0⟩ = some none := by
  have h : Steps 100 (fun _ => False) (Sys.start 10 0 (p2 [1] [2])) _ := .refl
  have h := h.tail (.push _ 0 1 _ _ rfl rfl)
  have h := h.tail (.trySend _ 0 1 ⟨1, 0, 0, 1, 1, 0⟩ [1] (by decide) (by decide))
  have h := h.tail (.tryRecv _ 0 1 ⟨1, 0, 0, 1, 1, 0⟩ [1] (by decide) (by decide))
  have h := h.tail (.ask _ 1 0 _ _ rfl rfl)
  have h := h.tail (.hit _ 1 0 _ _ _ _ [1] rfl (by decide) (by decide))
  exact ⟨_, h, _, rfl, by decide, by decide⟩

/-- A synchronous send under way. -/
example : ∃ τ : Sys Unit, Steps 100 (fun _ => False)
    (Sys.start 10 10 fun p => if p = 0 then .ssend ⟨w2, 0, 5, 1, 0, [3]⟩ (.ret ()) else .ret ()) τ ∧
    (τ.proc 0).pc = .syncing 1 ⟨1, 5, 0, 1, 0, 0⟩ (.ret ()) := by
  have h : Steps 100 (fun _ => False) (Sys.start 10 10 fun p =>
    if p = 0 then Prog.ssend ⟨w2, 0, 5, 1, 0, [3]⟩ (.ret ()) else .ret ()) _ := .refl
  have h := h.tail (.sync _ 0 1 _ _ rfl rfl)
  exact ⟨_, h, rfl⟩

/-- World of four, a subgroup of it, and the two halves of that: may be used together. -/
example : Sep (Made ⟨0, [0, 1, 2, 3], 1⟩ fun c d =>
    (c = ⟨0, [0, 1, 2, 3], 1⟩ ∧ d = ⟨1, [1, 2, 3], 2⟩) ∨
    (c = ⟨1, [1, 2, 3], 2⟩ ∧ (d = ⟨2, [1], 3⟩ ∨ d = ⟨3, [2, 3], 3⟩))) := by
  refine C53_tree (by decide) ?_ ?_ ?_ ?_
  · rintro c d (⟨rfl, rfl⟩ | ⟨rfl, rfl | rfl⟩) <;> rfl
  · rintro c d (⟨rfl, rfl⟩ | ⟨rfl, rfl | rfl⟩) <;> decide
  · rintro c d (⟨rfl, rfl⟩ | ⟨rfl, rfl | rfl⟩) <;> decide
  · rintro c d e p (⟨rfl, rfl⟩ | ⟨rfl, rfl | rfl⟩) (⟨h, rfl⟩ | ⟨h, rfl | rfl⟩) <;> simp_all <;> omega

/-! ### two groups made from the same one -/

/-- Groups of LAIK made from a world of three processes without process 0, and without
process 1. Both are of generation 2. -/
def gA : Comm := ⟨1, [1, 2], 2⟩
def gB : Comm := ⟨2, [0, 2], 2⟩

/-- Process 1 sends to process 2 in group `gA`, process 0 sends to process 2 in group `gB`;
process 2 receives in `gA`. -/
def pAB : Nat → Prog (List Body)
  | 0 => .send ⟨gB, 0, 0, 1, 1, [7]⟩ (.ret [])
  | 1 => .send ⟨gA, 0, 0, 1, 1, [9]⟩ (.ret [])
  | 2 => .recv ⟨gA, 1, 0, 0, 1⟩ fun x => .ret [x]
  | _ => .ret []

theorem pAB_uses (p : Nat) : Uses (fun c => c = gA ∨ c = gB) p (pAB p) := by
  match p with
  | 0 => exact .send ⟨Or.inr rfl, rfl, Nat.lt_add_one 1, Nat.one_ne_zero⟩ (.ret _)
  | 1 => exact .send ⟨Or.inl rfl, rfl, Nat.lt_add_one 1, Nat.one_ne_zero⟩ (.ret _)
  | 2 => exact .recv ⟨Or.inl rfl, rfl, by decide, by decide⟩ fun _ => .ret _
  | _ + 3 => exact .ret _

theorem pAB_ideal {u : Ideal (List Body)} (h : ISteps (Ideal.start pAB) u) :
    (u.prog 0 = pAB 0 ∨ u.prog 0 = .ret []) ∧ (u.prog 1 = pAB 1 ∨ u.prog 1 = .ret []) ∧
    (u.prog 2 = pAB 2 ∨ u.prog 2 = .ret [[9]]) ∧ (∀ p, p > 2 → u.prog p = .ret []) ∧
    (∀ p, u.bg p = []) ∧ ∀ b ∈ u.sent ⟨gA, 0, 0, 1, 1⟩, b = [9] := by
  induction h with
  | refl =>
    refine ⟨Or.inl rfl, Or.inl rfl, Or.inl rfl, fun p hp => ?_, fun _ => rfl, by simp [Ideal.start]⟩
    match p with
    | _ + 3 => rfl
  | @tail u v _ hs ih =>
    obtain ⟨h0, h1, h2, h3, hb, hsent⟩ := ih
    have big : ∀ p, u.prog p = pAB p ∨ u.prog p = .ret [] ∨ u.prog p = .ret [[9]] := by
      intro p
      match p with
      | 0 => exact h0.imp id Or.inl
      | 1 => exact h1.imp id Or.inl
      | 2 => exact h2.imp id Or.inr
      | n + 3 => exact Or.inr (Or.inl (h3 _ (by omega)))
    cases hs with
    | send p m k h =>
      rcases big p with e | e | e <;> rw [e] at h
      · match p with
        | 0 =>
          simp only [pAB, Prog.send.injEq] at h
          obtain ⟨rfl, rfl⟩ := h
          refine ⟨Or.inr (by simp), by simpa using h1, by simpa using h2, ?_, hb, ?_⟩
          · intro p hp
            have : p ≠ 0 := by omega
            simpa [this] using h3 p hp
          · simpa [Snd.chan, gA, gB] using hsent
        | 1 =>
          simp only [pAB, Prog.send.injEq] at h
          obtain ⟨rfl, rfl⟩ := h
          refine ⟨by simpa using h0, Or.inr (by simp), by simpa using h2, ?_, hb, ?_⟩
          · intro p hp
            have : p ≠ 1 := by omega
            simpa [this] using h3 p hp
          · intro b hb
            simp only [Snd.chan, update_self, List.mem_append, List.mem_singleton] at hb
            rcases hb with hb | hb
            · exact hsent b hb
            · exact hb
        | 2 => simp [pAB] at h
        | _ + 3 => simp [pAB] at h
      · cases h
      · cases h
    | ssend p m k h =>
      rcases big p with e | e | e <;> rw [e] at h
      · match p with
        | 0 => simp [pAB] at h
        | 1 => simp [pAB] at h
        | 2 => simp [pAB] at h
        | _ + 3 => simp [pAB] at h
      · cases h
      · cases h
    | recv p m k b h hb' =>
      rcases big p with e | e | e <;> rw [e] at h
      · match p with
        | 0 => simp [pAB] at h
        | 1 => simp [pAB] at h
        | 2 =>
          simp only [pAB, Prog.recv.injEq] at h
          obtain ⟨rfl, rfl⟩ := h
          obtain rfl := hsent b (List.mem_of_getElem? hb')
          refine ⟨by simpa using h0, by simpa using h1, Or.inr (by simp), ?_, hb, hsent⟩
          intro p hp
          have : p ≠ 2 := by omega
          simpa [this] using h3 p hp
        | _ + 3 => simp [pAB] at h
      · cases h
      · cases h
    | fork p ms k h hb' =>
      rcases big p with e | e | e <;> rw [e] at h
      · match p with
        | 0 => simp [pAB] at h
        | 1 => simp [pAB] at h
        | 2 => simp [pAB] at h
        | _ + 3 => simp [pAB] at h
      · cases h
      · cases h
    | bg p m ms h => simp [hb] at h
    | join p k h hb' =>
      rcases big p with e | e | e <;> rw [e] at h
      · match p with
        | 0 => simp [pAB] at h
        | 1 => simp [pAB] at h
        | 2 => simp [pAB] at h
        | _ + 3 => simp [pAB] at h
      · cases h
      · cases h

/-- **C53** is false if two groups are made from the same one: process 2 receives in
`gA` what was sent in `gB`, by another process. Nothing is lost, and process 1 has
not even started. -/
theorem C53_overlapping_groups : ∃ τ : Sys (List Body),
    Steps 100 (fun _ => False) (Sys.start (2 ^ 24) (2 ^ 24) pAB) τ ∧
    (τ.proc 1).pc = .run (pAB 1) ∧ (τ.proc 2).pc = .run (.ret [[7]]) ∧
    ¬ ∃ u, ISteps (Ideal.start pAB) u ∧ Shows τ u := by
  have h : Steps 100 (fun _ => False) (Sys.start (2 ^ 24) (2 ^ 24) pAB) _ := .refl
  have h := h.tail (.push _ 0 2 _ _ rfl rfl)
  have h := h.tail (.trySend _ 0 2 ⟨2, 0, 0, 1, 1, 0⟩ [7] (by decide) (by decide))
  have h := h.tail (.tryRecv _ 0 2 ⟨2, 0, 0, 1, 1, 0⟩ [7] (by decide) (by decide))
  have h := h.tail (.ask _ 2 1 _ _ rfl rfl)
  have h := h.tail (.hit _ 2 1 _ _ _ _ [7] rfl (by decide) (by decide))
  refine ⟨_, h, rfl, rfl, ?_⟩
  rintro ⟨u, hu, hs⟩
  have h2 := (hs 2).2.1
  have h3 : u.prog 2 = .ret [[7]] := h2
  rcases (pAB_ideal hu).2.2.1 with e | e <;> rw [e] at h3
  · simp [pAB] at h3
  · simp at h3

/-! ### late senders -/

/-- **C53** is false for senders which are late: with any number of attempts a receive
can give up, though nothing is lost and the other process just has not sent yet. -/
theorem C53_gives_up (A il ol : Nat) (b c : Body) : ∃ τ : Sys (List Body),
    Steps A (fun _ => False) (Sys.start il ol (p2 b c)) τ ∧ (τ.proc 0).pc = .run (p2 b c 0) ∧
    ∃ m k, (τ.proc 1).pc = .failed m k := by
  have h : Steps A (fun _ => False) (Sys.start il ol (p2 b c)) _ := .refl
  have h := h.tail (.ask _ 1 0 _ _ rfl rfl)
  have miss : ∀ n, n ≤ A → ∃ τ : Sys (List Body),
      Steps A (fun _ => False) (Sys.start il ol (p2 b c)) τ ∧ (τ.proc 0).pc = .run (p2 b c 0) ∧
      (∃ m k, (τ.proc 1).pc = .getting m 0 ⟨1, 0, 0, 1, 1, 0⟩ n k) ∧ (τ.proc 1).inbox.tab = [] := by
    intro n
    induction n with
    | zero => exact fun _ => ⟨_, h, rfl, ⟨_, _, rfl⟩, rfl⟩
    | succ n ih =>
      intro hn
      obtain ⟨τ, h1, h2, ⟨m, k, h3⟩, h4⟩ := ih (by omega)
      refine ⟨_, h1.tail (.miss τ 1 0 m _ n k h3 (by omega) ?_), ?_, ⟨m, k, ?_⟩, ?_⟩
      · simp [Box.get, Box.look, h4, look]
      · simpa using h2
      · simp
      · simpa using h4
  obtain ⟨τ, h1, h2, ⟨m, k, h3⟩, h4⟩ := miss A (Nat.le_refl _)
  refine ⟨_, h1.tail (.fail τ 1 0 m _ A k h3 (by omega)), ?_, m, k, ?_⟩
  · simpa [Sys.setP] using h2
  · simp [Sys.setP]

/-! ### messages larger than the boxes -/

/-- Both processes send to the other one and then receive. -/
def px (b c : Body) : Nat → Prog (List Body)
  | 0 => .send ⟨w2, 0, 0, 1, 1, b⟩ (.recv ⟨w2, 0, 0, 1, 1⟩ fun x => .ret [x])
  | 1 => .send ⟨w2, 1, 0, 0, 1, c⟩ (.recv ⟨w2, 1, 0, 0, 1⟩ fun x => .ret [x])
  | _ => .ret []

theorem px_uses (b c : Body) (p : Nat) : Uses (· = w2) p (px b c p) := by
  match p with
  | 0 =>
    exact .send ⟨rfl, rfl, Nat.lt_add_one 1, Nat.one_ne_zero⟩
      (.recv ⟨rfl, rfl, by decide, by decide⟩ fun _ => .ret _)
  | 1 =>
    exact .send ⟨rfl, rfl, Nat.zero_lt_two, Nat.zero_ne_one⟩
      (.recv ⟨rfl, rfl, by decide, by decide⟩ fun _ => .ret _)
  | _ + 2 => exact .ret _

/-- State of process `p` if no large message gets through. -/
structure Stuck (il ol : Nat) (P : Proc (List Body)) (s r : Prog (List Body)) : Prop where
  pc : P.pc = .run s ∧ P.outbox = .new ol ∨ P.pc = .blocked r ∧ P.outbox.size > P.outbox.limit
  inbox : P.inbox = .new il
  bg : P.bg = [] ∧ P.bgBlk = false

/-- Nothing but large messages is under way. -/
def Large (il : Nat) : Item → Prop
  | .tryTask _ _ _ => True
  | .tryMsg _ _ _ b => il < b.length ∧ b.length ≤ sizeMax
  | _ => False

/-- What is in an outbox is large. -/
def LargeBox (il : Nat) (b : Box) : Prop :=
  ∀ h v, b.look h = some (some v) → il < v.length ∧ v.length ≤ sizeMax

def AllStuck (il ol : Nat) (b c : Body) (σ : Sys (List Body)) : Prop :=
  Stuck il ol (σ.proc 0) (px b c 0) (.recv ⟨w2, 0, 0, 1, 1⟩ fun x => .ret [x]) ∧
  Stuck il ol (σ.proc 1) (px b c 1) (.recv ⟨w2, 1, 0, 0, 1⟩ fun x => .ret [x]) ∧
  (∀ p, p > 1 → (σ.proc p).pc = .run (.ret []) ∧ (σ.proc p).inbox = .new il ∧
    (σ.proc p).bg = [] ∧ (σ.proc p).bgBlk = false) ∧
  (∀ p, LargeBox il (σ.proc p).outbox) ∧ ∀ x ∈ σ.net, Large il x

theorem plus_zero {n : Nat} (h : n ≤ sizeMax) : plus 0 n = n := by
  unfold plus
  rw [if_pos (by omega)]
  omega

theorem AllStuck.step {A il ol : Nat} {L : Item → Prop} {b c : Body}
    (hb : il < b.length ∧ ol < b.length ∧ b.length ≤ sizeMax)
    (hc : il < c.length ∧ ol < c.length ∧ c.length ≤ sizeMax) {σ τ : Sys (List Body)}
    (h : AllStuck il ol b c σ) (hs : Step A L σ τ) : AllStuck il ol b c τ := by
  obtain ⟨h0, h1, h2, h3, h4⟩ := h
  -- what a program counter can be
  have pcs : ∀ p, (σ.proc p).pc = .run (px b c p) ∧ (p ≤ 1 → (σ.proc p).outbox = .new ol) ∨
      ((∃ k, (σ.proc p).pc = .blocked k) ∧ (σ.proc p).outbox.size > (σ.proc p).outbox.limit) := by
    intro p
    match p with
    | 0 => exact h0.pc.imp (fun h => ⟨h.1, fun _ => h.2⟩) (fun h => ⟨⟨_, h.1⟩, h.2⟩)
    | 1 => exact h1.pc.imp (fun h => ⟨h.1, fun _ => h.2⟩) (fun h => ⟨⟨_, h.1⟩, h.2⟩)
    | p + 2 => exact Or.inl ⟨(h2 _ (by omega)).1, by omega⟩
  have bgs : ∀ p, (σ.proc p).bg = [] ∧ (σ.proc p).bgBlk = false ∧ (σ.proc p).inbox = .new il := by
    intro p
    match p with
    | 0 => exact ⟨h0.bg.1, h0.bg.2, h0.inbox⟩
    | 1 => exact ⟨h1.bg.1, h1.bg.2, h1.inbox⟩
    | p + 2 => exact ⟨(h2 _ (by omega)).2.2.1, (h2 _ (by omega)).2.2.2, (h2 _ (by omega)).2.1⟩
  have norun : ∀ {p k}, (σ.proc p).pc = .run k → k = px b c p := by
    intro p k e
    rcases pcs p with ⟨e1, _⟩ | ⟨⟨k1, e1⟩, _⟩ <;> rw [e1] at e
    · simpa using e.symm
    · cases e
  have noget : ∀ {p m q h att k}, (σ.proc p).pc = .getting m q h att k → False := by
    intro p m q h att k e
    rcases pcs p with ⟨e1, _⟩ | ⟨⟨k1, e1⟩, _⟩ <;> rw [e1] at e <;> cases e
  have nosyn : ∀ {p q h k}, (σ.proc p).pc = .syncing q h k → False := by
    intro p q h k e
    rcases pcs p with ⟨e1, _⟩ | ⟨⟨k1, e1⟩, _⟩ <;> rw [e1] at e <;> cases e
  have nopx : ∀ {p k}, px b c p = k → (∃ m k', k = .send m k') ∨ k = .ret [] := by
    intro p k e
    subst e
    match p with
    | 0 => exact Or.inl ⟨_, _, rfl⟩
    | 1 => exact Or.inl ⟨_, _, rfl⟩
    | _ + 2 => exact Or.inr rfl
  have net : ∀ {l : List Item}, (∀ x ∈ l, Large il x) → AllStuck il ol b c ⟨σ.proc, l⟩ :=
    fun hl => ⟨h0, h1, h2, h3, hl⟩
  have erase : ∀ x, ∀ y ∈ σ.net.erase x, Large il y := fun x y hy => h4 y (List.mem_of_mem_erase hy)
  cases hs with
  | push p q m k hp hq =>
    have e := norun hp
    -- the new entry
    have large : ∀ v : Body, il < v.length ∧ v.length ≤ sizeMax → ∀ h,
        LargeBox il ((σ.proc p).outbox.add h v) := by
      intro v hv h h' v' e
      rw [Box.look_add] at e
      split at e
      · simp only [Option.some.injEq] at e
        rw [← e]
        exact hv
      · exact h3 p h' v' e
    have task : ∀ (q : Nat) (h : Hd), ∀ x ∈ Item.tryTask p q h :: σ.net, Large il x := by
      intro q h x hx
      rcases List.mem_cons.mp hx with rfl | hx
      · trivial
      · exact h4 x hx
    have full : ∀ (v : Body) (h : Hd), ol < v.length ∧ v.length ≤ sizeMax →
        ((Box.new ol).add h v).size > ((Box.new ol).add h v).limit := by
      intro v h hv
      have := plus_zero hv.2
      simp only [Box.add, Box.new, Box.look, look, this]
      exact hv.1
    match p with
    | 0 =>
      simp only [px, Prog.send.injEq] at e
      obtain ⟨rfl, rfl⟩ := e
      have ho : (σ.proc 0).outbox = .new ol := by
        rcases h0.pc with ⟨_, e⟩ | ⟨e, _⟩
        · exact e
        · rw [hp] at e
          cases e
      refine ⟨⟨Or.inr ⟨by simp, ?_⟩, by simpa [Proc.put] using h0.inbox,
        by simpa [Proc.put] using h0.bg⟩, by simpa using h1,
        fun p hp => by
          have : p ≠ 0 := by omega
          simpa [this] using h2 p hp, fun p => ?_, task _ _⟩
      · simp only [update_self, Proc.put, ho]
        exact full b _ hb.2
      · by_cases hp0 : p = 0
        · subst hp0
          simp only [update_self, Proc.put]
          exact large b ⟨hb.1, hb.2.2⟩ _
        · simpa [hp0] using h3 p
    | 1 =>
      simp only [px, Prog.send.injEq] at e
      obtain ⟨rfl, rfl⟩ := e
      have ho : (σ.proc 1).outbox = .new ol := by
        rcases h1.pc with ⟨_, e⟩ | ⟨e, _⟩
        · exact e
        · rw [hp] at e
          cases e
      refine ⟨by simpa using h0, ⟨Or.inr ⟨by simp, ?_⟩, by simpa [Proc.put] using h1.inbox,
        by simpa [Proc.put] using h1.bg⟩,
        fun p hp => by
          have : p ≠ 1 := by omega
          simpa [this] using h2 p hp, fun p => ?_, task _ _⟩
      · simp only [update_self, Proc.put, ho]
        exact full c _ hc.2
      · by_cases hp0 : p = 1
        · subst hp0
          simp only [update_self, Proc.put]
          exact large c ⟨hc.1, hc.2.2⟩ _
        · simpa [hp0] using h3 p
    | _ + 2 => simp [px] at e
  | unblock p k hp hs =>
    exfalso
    rcases pcs p with ⟨e1, _⟩ | ⟨_, e2⟩
    · rw [e1] at hp
      cases hp
    · exact hs e2
  | sync p q m k hp hq =>
    exfalso
    rcases nopx (norun hp).symm with ⟨_, _, e⟩ | e <;> cases e
  | addSend p q h k b hp hb => exact (nosyn hp).elim
  | addRecv p q h b hx => exact (h4 _ hx).elim
  | addDone p q h k hp hx => exact (nosyn hp).elim
  | syncGone p q h k hp hb => exact (nosyn hp).elim
  | ask p q m k hp hq =>
    exfalso
    rcases nopx (norun hp).symm with ⟨_, _, e⟩ | e <;> cases e
  | hit p q m h att k b hp ha hb => exact (noget hp).elim
  | miss p q m h att k hp ha hb => exact (noget hp).elim
  | fail p q m h att k hp ha => exact (noget hp).elim
  | deadSend p m k hp hq =>
    exfalso
    rcases hp with hp | hp
    · have e := norun hp
      match p with
      | 0 =>
        simp only [px, Prog.send.injEq] at e
        obtain ⟨rfl, rfl⟩ := e
        simp [peerOf, w2] at hq
      | 1 =>
        simp only [px, Prog.send.injEq] at e
        obtain ⟨rfl, rfl⟩ := e
        simp [peerOf, w2] at hq
      | _ + 2 => simp [px] at e
    · rcases nopx (norun hp).symm with ⟨_, _, e⟩ | e <;> cases e
  | deadRecv p m k hp hq =>
    exfalso
    rcases nopx (norun hp).symm with ⟨_, _, e⟩ | e <;> cases e
  | fork p ms k hp hb hc' =>
    exfalso
    rcases nopx (norun hp).symm with ⟨_, _, e⟩ | e <;> cases e
  | bgPush p q m ms hb hc' hq => simp [(bgs p).1] at hb
  | deadBg p m ms hb hc' hq => simp [(bgs p).1] at hb
  | bgUnblock p hc' hs => simp [(bgs p).2.1] at hc'
  | join p k hp hb hc' =>
    exfalso
    rcases nopx (norun hp).symm with ⟨_, _, e⟩ | e <;> cases e
  | trySend p q h b hx hb =>
    refine net fun x hx' => ?_
    rcases List.mem_cons.mp hx' with rfl | hx'
    · exact h3 p h b (Box.get_some.mp hb)
    · exact erase _ x hx'
  | tryDrop p q h hx hb => exact net (erase _)
  | tryRecv p q h b hx hr =>
    exfalso
    have hl : il < b.length ∧ b.length ≤ sizeMax := h4 _ hx
    rw [(bgs q).2.2] at hr
    have := plus_zero hl.2
    simp only [Box.tryAdd, Box.new, Box.look, look, this] at hr
    rw [if_pos hl.1] at hr
    cases hr
  | tryRefuse p q h b hx hr => exact net (erase _)
  | disc p h hx => exact (h4 _ hx).elim
  | getSend q p h b hx hb => exact (h4 _ hx).elim
  | getNone q p h hx hb => exact (h4 _ hx).elim
  | getRecv q h b hx => exact (h4 _ hx).elim
  | lose x hx hl => exact net (erase _)

/-- **C53**, limit of the channels: if two processes first send messages to each other which
are larger than inbox and outbox, and then receive, both block forever (as is allowed
for blocking sends in MPI); here for all sizes of the boxes and all messages. -/
theorem C53_exchange_blocks {A il ol : Nat} {L : Item → Prop} {b c : Body}
    (hb : il < b.length ∧ ol < b.length ∧ b.length ≤ sizeMax)
    (hc : il < c.length ∧ ol < c.length ∧ c.length ≤ sizeMax) {τ : Sys (List Body)}
    (h : Steps A L (Sys.start il ol (px b c)) τ) (p : Nat) (hp : p ≤ 1) :
    (τ.proc p).pc = .run (px b c p) ∨ ∃ k, (τ.proc p).pc = .blocked k := by
  have hs : AllStuck il ol b c τ := by
    induction h with
    | refl =>
      refine ⟨⟨Or.inl ⟨rfl, rfl⟩, rfl, rfl, rfl⟩, ⟨Or.inl ⟨rfl, rfl⟩, rfl, rfl, rfl⟩, fun p hp => ?_,
        fun p h v e => ?_, by simp [Sys.start]⟩
      · match p with
        | _ + 2 => exact ⟨rfl, rfl, rfl, rfl⟩
      · simp [Sys.start, Box.new, Box.look, look] at e
    | tail _ hs ih => exact ih.step hb hc hs
  match p with
  | 0 => exact hs.1.pc.imp (fun h => h.1) (fun h => ⟨_, h.1⟩)
  | 1 => exact hs.2.1.pc.imp (fun h => h.1) (fun h => ⟨_, h.1⟩)

/-- With the default sizes of 16 MiB and messages of one byte more. -/
example {τ : Sys (List Body)} {A : Nat} {L : Item → Prop} (h : Steps A L (Sys.start (2 ^ 24) (2 ^ 24)
    (px (List.replicate (2 ^ 24 + 1) 0) (List.replicate (2 ^ 24 + 1) 0))) τ) :
    ¬ ∃ x, (τ.proc 0).pc = .run (.ret x) := by
  have hl : (2 ^ 24 < (List.replicate (2 ^ 24 + 1) (0 : UInt8)).length ∧
      2 ^ 24 < (List.replicate (2 ^ 24 + 1) (0 : UInt8)).length ∧
      (List.replicate (2 ^ 24 + 1) (0 : UInt8)).length ≤ sizeMax) := by
    rw [List.length_replicate]
    decide
  rintro ⟨x, hx⟩
  rcases C53_exchange_blocks hl hl h 0 (by decide) with e | ⟨k, e⟩ <;> rw [hx] at e
  · have := Pc.run.inj e
    cases this
  · cases e

/-! ### lost answers -/

/-- State in which all messages are gone. -/
structure Lost (σ : Sys (List Body)) : Prop where
  p0 : (σ.proc 0).pc = .run (.ret []) ∨ (σ.proc 0).pc = .blocked (.ret [])
  p1 : (∃ m h att k, (σ.proc 1).pc = .getting m 0 h att k) ∨ ∃ m k, (σ.proc 1).pc = .failed m k
  rest : ∀ p, p > 1 → (σ.proc p).pc = .run (.ret [])
  out : ∀ p h v, (σ.proc p).outbox.look h ≠ some (some v)
  inb : ∀ p h v, (σ.proc p).inbox.look h ≠ some (some v)
  bg : ∀ p, (σ.proc p).bg = []
  net : ∀ x ∈ σ.net, (∃ p q h, x = .tryTask p q h) ∨ ∃ p q h, x = .getReq p q h

theorem Lost.step {A : Nat} {L : Item → Prop} {σ τ : Sys (List Body)} (h : Lost σ)
    (hs : Step A L σ τ) : Lost τ := by
  have norun : ∀ {p k}, (σ.proc p).pc = .run k → k = .ret [] := by
    intro p k e
    match p with
    | 0 =>
      rcases h.p0 with e1 | e1 <;> rw [e1] at e
      · simpa using e.symm
      · cases e
    | 1 => rcases h.p1 with ⟨m, h, att, k, e1⟩ | ⟨m, k, e1⟩ <;> rw [e1] at e <;> cases e
    | p + 2 =>
      rw [h.rest _ (by omega)] at e
      simpa using e.symm
  have nosyn : ∀ {p q h k}, (σ.proc p).pc = .syncing q h k → False := by
    intro p q h' k e
    match p with
    | 0 => rcases h.p0 with e1 | e1 <;> rw [e1] at e <;> cases e
    | 1 => rcases h.p1 with ⟨m, h, att, k, e1⟩ | ⟨m, k, e1⟩ <;> rw [e1] at e <;> cases e
    | p + 2 =>
      rw [h.rest _ (by omega)] at e
      cases e
  have one : ∀ {p m q h att k}, (σ.proc p).pc = .getting m q h att k → p = 1 := by
    intro p m q h' att k e
    match p with
    | 0 => rcases h.p0 with e1 | e1 <;> rw [e1] at e <;> cases e
    | 1 => rfl
    | p + 2 =>
      rw [h.rest _ (by omega)] at e
      cases e
  have noget : ∀ p h', (σ.proc p).inbox.get h' ≠ none → False := by
    intro p h' e
    obtain ⟨v, hv⟩ := Option.ne_none_iff_exists'.mp e
    exact h.inb p h' v (Box.get_some.mp hv)
  have noout : ∀ p h' v, (σ.proc p).outbox.get h' ≠ some v :=
    fun p h' v hv => h.out p h' v (Box.get_some.mp hv)
  have net : ∀ {l : List Item}, (∀ x ∈ l, (∃ p q h, x = .tryTask p q h) ∨ ∃ p q h, x = .getReq p q h) →
      Lost ⟨σ.proc, l⟩ := fun hl => ⟨h.p0, h.p1, h.rest, h.out, h.inb, h.bg, hl⟩
  have erase : ∀ x, ∀ y ∈ σ.net.erase x, (∃ p q h, y = .tryTask p q h) ∨ ∃ p q h, y = .getReq p q h :=
    fun x y hy => h.net y (List.mem_of_mem_erase hy)
  -- only a program counter changes
  have pc : ∀ (p : Nat) (P : Proc (List Body)) (l : List Item), P.inbox = (σ.proc p).inbox →
      P.outbox = (σ.proc p).outbox → P.bg = (σ.proc p).bg →
      (∀ x ∈ l, (∃ p q h, x = .tryTask p q h) ∨ ∃ p q h, x = .getReq p q h) →
      (p = 0 → P.pc = .run (.ret []) ∨ P.pc = .blocked (.ret [])) →
      (p = 1 → (∃ m h att k, P.pc = .getting m 0 h att k) ∨ ∃ m k, P.pc = .failed m k) →
      (p > 1 → P.pc = .run (.ret [])) → Lost ⟨update σ.proc p P, l⟩ := by
    intro p P l h1 h2 h3 h4 h5 h6 h7
    refine ⟨?_, ?_, fun q hq => ?_, fun q => ?_, fun q => ?_, fun q => ?_, h4⟩
    · by_cases e : p = 0
      · subst e
        simpa using h5 rfl
      · simpa [Ne.symm e] using h.p0
    · by_cases e : p = 1
      · subst e
        simpa using h6 rfl
      · simpa [Ne.symm e] using h.p1
    · by_cases e : q = p
      · subst e
        simpa using h7 hq
      · simpa [e] using h.rest q hq
    · by_cases e : q = p
      · subst e
        simpa [h2] using h.out q
      · simpa [e] using h.out q
    · by_cases e : q = p
      · subst e
        simpa [h1] using h.inb q
      · simpa [e] using h.inb q
    · by_cases e : q = p
      · subst e
        simpa [h3] using h.bg q
      · simpa [e] using h.bg q
  have pcv : ∀ {p m q h att k}, (σ.proc p).pc = .getting m q h att k → q = 0 := by
    intro p m q h' att k e
    obtain rfl := one e
    rcases h.p1 with ⟨m, h, att, k, e1⟩ | ⟨m, k, e1⟩ <;> rw [e1] at e
    · simp only [Pc.getting.injEq] at e
      exact e.2.1.symm
    · cases e
  have noitem : ∀ {x}, x ∈ σ.net → (∀ p q h, x ≠ .tryTask p q h) → (∀ p q h, x ≠ .getReq p q h) →
      False := by
    intro x hx h1 h2
    rcases h.net x hx with ⟨p, q, h, e⟩ | ⟨p, q, h, e⟩
    · exact h1 _ _ _ e
    · exact h2 _ _ _ e
  cases hs with
  | push p q m k hp hq => cases norun hp
  | unblock p k hp hs =>
    have hk : p = 0 ∧ k = .ret [] := by
      match p with
      | 0 =>
        rcases h.p0 with e1 | e1 <;> rw [e1] at hp
        · cases hp
        · exact ⟨rfl, by simpa using hp.symm⟩
      | 1 => rcases h.p1 with ⟨m, h, att, k, e1⟩ | ⟨m, k, e1⟩ <;> rw [e1] at hp <;> cases hp
      | p + 2 =>
        rw [h.rest _ (by omega)] at hp
        cases hp
    obtain ⟨rfl, rfl⟩ := hk
    exact pc 0 _ _ rfl rfl rfl h.net (fun _ => Or.inl rfl) (by simp) (by simp)
  | sync p q m k hp hq => cases norun hp
  | addSend p q h k b hp hb => exact (nosyn hp).elim
  | addRecv p q h b hx => exact (noitem hx (by simp) (by simp)).elim
  | addDone p q h k hp hx => exact (nosyn hp).elim
  | syncGone p q h k hp hb => exact (nosyn hp).elim
  | ask p q m k hp hq => cases norun hp
  | hit p q m h att k b hp ha hb => exact (noget p h (by rw [hb]; simp)).elim
  | miss p q m h' att k hp ha hb =>
    obtain rfl := one hp
    obtain rfl := pcv hp
    refine pc 1 _ _ rfl rfl rfl (fun x hx => ?_) (by simp) (fun _ => Or.inl ⟨_, _, _, _, rfl⟩) (by simp)
    rcases List.mem_cons.mp hx with rfl | hx
    · exact Or.inr ⟨_, _, _, rfl⟩
    · exact h.net x hx
  | fail p q m h' att k hp ha =>
    obtain rfl := one hp
    exact pc 1 _ _ rfl rfl rfl h.net (by simp) (fun _ => Or.inr ⟨_, _, rfl⟩) (by simp)
  | deadSend p m k hp hq => rcases hp with hp | hp <;> cases norun hp
  | deadRecv p m k hp hq => cases norun hp
  | fork p ms k hp hb hc' => cases norun hp
  | bgPush p q m ms hb hc' hq => simp [h.bg] at hb
  | deadBg p m ms hb hc' hq => simp [h.bg] at hb
  | bgUnblock p hc' hs =>
    refine pc p _ _ rfl rfl rfl h.net (fun e => ?_) (fun e => ?_) (fun e => h.rest p e)
    · subst e
      exact h.p0
    · subst e
      exact h.p1
  | join p k hp hb hc' => cases norun hp
  | trySend p q h b hx hb => exact (noout p h b hb).elim
  | tryDrop p q h hx hb => exact net (erase _)
  | tryRecv p q h b hx hr => exact (noitem hx (by simp) (by simp)).elim
  | tryRefuse p q h b hx hr => exact (noitem hx (by simp) (by simp)).elim
  | disc p h hx => exact (noitem hx (by simp) (by simp)).elim
  | getSend q p h b hx hb => exact (noout p h b hb).elim
  | getNone q p h hx hb => exact net (erase _)
  | getRecv q h b hx => exact (noitem hx (by simp) (by simp)).elim
  | lose x hx hl => exact net (erase _)

/-- One message from process 0 to process 1. -/
def p1 (b : Body) : Nat → Prog (List Body)
  | 0 => .send ⟨w2, 0, 0, 1, 1, b⟩ (.ret [])
  | 1 => .recv ⟨w2, 1, 0, 0, 1⟩ fun x => .ret [x]
  | _ => .ret []

/-- **C53** needs that answers to GET are not lost: the sender discards the message when it
has written the answer (messenger.c 147-149). If the connection breaks then, the message
is gone: process 0 is done, process 1 never gets it. -/
theorem C53_lost_answer : ∃ τ : Sys (List Body),
    Steps 100 (fun x => ∃ q h b, x = .getRep q h b) (Sys.start (2 ^ 24) (2 ^ 24) (p1 [5])) τ ∧
    (τ.proc 0).pc = .run (.ret []) ∧
    ∀ A L υ, Steps A L τ υ → ∀ x, (υ.proc 1).pc ≠ .run x := by
  have h : Steps 100 (fun x => ∃ q h b, x = .getRep q h b)
    (Sys.start (2 ^ 24) (2 ^ 24) (p1 [5])) _ := .refl
  have h := h.tail (.push _ 0 1 _ _ rfl rfl)
  have h := h.tail (.unblock _ 0 _ rfl (by decide))
  have h := h.tail (.ask _ 1 0 _ _ rfl rfl)
  have h := h.tail (.miss _ 1 0 _ _ _ _ rfl (by decide) (by decide))
  have h := h.tail (.getSend _ 1 0 ⟨1, 0, 0, 1, 1, 0⟩ [5] (by decide) (by decide))
  have h := h.tail (.disc _ 0 ⟨1, 0, 0, 1, 1, 0⟩ (by decide))
  have h := h.tail (.lose _ (.getRep 1 ⟨1, 0, 0, 1, 1, 0⟩ [5]) (by decide) ⟨_, _, _, rfl⟩)
  refine ⟨_, h, rfl, ?_⟩
  intro A L υ hυ
  have hl : Lost υ := by
    induction hυ with
    | refl =>
      refine ⟨Or.inl rfl, Or.inl ⟨_, _, _, _, rfl⟩, fun p hp => ?_, fun p => ?_, fun p => ?_,
        fun p => ?_, fun x hx => ?_⟩
      · match p with
        | _ + 2 => rfl
      · match p with
        | 0 =>
          intro h v
          have e : ∀ h, ((fun (b : Box) => b.look h)
              ⟨[(⟨1, 0, 0, 1, 1, 0⟩, none)], 0, 2 ^ 24⟩ : Option (Option Body)) ≠ some (some v) := by
            intro h
            simp only [Box.look, look]
            split <;> simp
          exact e h
        | 1 => intro h v e; cases e
        | _ + 2 => intro h v e; cases e
      · match p with
        | 0 => intro h v e; cases e
        | 1 => intro h v e; cases e
        | _ + 2 => intro h v e; cases e
      · match p with
        | 0 => rfl
        | 1 => rfl
        | _ + 2 => rfl
      · have hx : x ∈ [Item.tryTask 0 1 ⟨1, 0, 0, 1, 1, 0⟩] := hx
        exact Or.inl ⟨_, _, _, List.mem_singleton.mp hx⟩
    | tail _ hs ih => exact ih.step hs
  intro x hx
  rcases hl.p1 with ⟨m, h, att, k, e⟩ | ⟨m, k, e⟩ <;> rw [hx] at e <;> cases e

end Laik.Mm
