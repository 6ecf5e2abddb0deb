import Verif.Model.TcpEvs
/-!
# A switch over the TCP backend based on GLib as sequence of events
-/

namespace Laik.Tc

open Laik.Mm Laik.Mp Laik.NX Function

variable {S : Comm → Prop} {c : Comm} {F : Flt} {ty : MTy} {s : MSetup UInt8} {Fr Tr : List TR} {skip : Nat → Int → Int → Bool}
  {prog : Nat → List (CBody UInt8)} {m0 : Nat → Mem} {val : Nat → Int → Body} {cf : Nat → (Nat → Body) → Nat → Body}

theorem exec_loc {p : Nat} {b : CBody UInt8} {f : Mem → Mem} (h : (s.ctx p []).exec b = .loc f) :
    (∃ op, b = .other op ∧ f = fun m => (op.run (MSt.ofMem m)).mem) ∨ ∃ i o op a d k, b = .comm (.gred i o op) a d k := by
  cases b with
  | other op => cases h; exact Or.inl ⟨op, rfl, rfl⟩
  | comm k a d n =>
    cases k with
    | gred i o op => exact Or.inr ⟨i, o, op, a, d, n, rfl⟩
    | send => cases h
    | recv => cases h
    | red => cases h

theorem exec_send {p q : Nat} {b : CBody UInt8} {out : Mem → Body} (h : (s.ctx p []).exec b = .send q out) :
    ∃ a d k, b = .comm (.send q) a d k ∧ out = fun m => readMem m a (k * s.es) := by
  cases b with
  | other op => cases h
  | comm k a d n =>
    cases k with
    | send => cases h; exact ⟨a, d, n, rfl, rfl⟩
    | gred => cases h
    | recv => cases h
    | red => cases h

theorem exec_recv {p q l : Nat} {b : CBody UInt8} {inn : Mem → Body → Mem} (h : (s.ctx p []).exec b = .recv q l inn) :
    ∃ a d k, b = .comm (.recv q) a d k ∧ l = k * s.es ∧ inn = fun m vs => writeMem m d vs := by
  cases b with
  | other op => cases h
  | comm k a d n =>
    cases k with
    | recv => cases h; exact ⟨a, d, n, rfl, rfl, rfl⟩
    | gred => cases h
    | send => cases h
    | red => cases h

theorem exec_coll {p k : Nat} {b : CBody UInt8} {out : Mem → Body} {inn : Mem → Body → Mem} (h : (s.ctx p []).exec b = .coll k out inn) :
    ∃ r op a d n, b = .comm (.red r op) a d n ∧ k = collNo r op ∧ out = (fun m => readMem m a (n * s.es)) ∧
      inn = fun m vs => if r = p ∨ r = -1 then writeMem m d (vs.take (n * s.es)) else m := by
  cases b with
  | other op => cases h
  | comm k a d n =>
    cases k with
    | red r op => cases h; exact ⟨r, op, a, d, n, rfl, rfl, rfl, rfl⟩
    | gred => cases h
    | send => cases h
    | recv => cases h

/-- The state in which processes still have to do `pr`, with memory `m` and no messages on the way. -/
def stOf (s : MSetup UInt8) (pr : Nat → List (CBody UInt8)) (m : Nat → Mem) : XState Mem UInt8 :=
  ⟨fun p => (pr p).map (s.ctx p []).exec, fun _ _ => [], m⟩

theorem stOf_up (pr : Nat → List (CBody UInt8)) (p : Nat) (l : List (CBody UInt8)) :
    upP (fun p => (pr p).map (s.ctx p []).exec) p (l.map (s.ctx p []).exec) = fun q => (upP pr p l q).map (s.ctx q []).exec := by
  funext q
  unfold upP
  by_cases h : q = p
  · subst h; simp
  · simp [h]

theorem map_cons {f : CBody UInt8 → XAct Mem UInt8} {l : List (CBody UInt8)} {a : XAct Mem UInt8} {t : List (XAct Mem UInt8)}
    (h : l.map f = a :: t) : ∃ b l', l = b :: l' ∧ f b = a ∧ t = l'.map f := by
  cases l with
  | nil => cases h
  | cons b l' => cases h; exact ⟨b, l', rfl, rfl, rfl⟩

theorem suffix_tail {α : Type} {b : α} {l L : List α} (h : b :: l <:+ L) : l <:+ L := (List.suffix_cons b l).trans h

/-- What is shown for the rest `pr` of the programs. -/
def Built (S : Comm → Prop) (c : Comm) (F : Flt) (ty : MTy) (s : MSetup UInt8) (cf : Nat → (Nat → Body) → Nat → Body)
    (start : XState Mem UInt8) (pr : Nat → List (CBody UInt8)) (st : Nat → Mem) : Prop :=
  ∃ es st' m' k', WF S none es ∧ run es st = some st' ∧ (∀ p < s.n, st' (c.proc p) = m' p) ∧
    (∀ p < s.n, ∀ x, proj (c.proc p) es x = tcpP F ty c p (pr p) x) ∧ (∀ q, q ∉ c.tasks → ∀ x, proj q es x = .ret x) ∧
    XSteps s.n cf k' start (stOf s (fun _ => []) m')

theorem built (hs : MSwitch s Fr Tr skip prog) (hm : MMemOK s Fr Tr skip m0 val) (hcf : Mp.CollOK s cf)
    (hn : c.tasks.Nodup) (hc : S c) (hN : c.tasks.length = s.n) (hes : s.es = ty.bytes)
    (hu : (∃ i, CollAt s Fr Tr i) → s.redOp = 1 ∧ cf = mmCf F ty s.n) :
    ∀ (d : Nat) (pr : Nat → List (CBody UInt8)) (m : Nat → Mem) (k : Nat) (st : Nat → Mem),
      NX.left s.n (stOf s pr m) < d → XSteps s.n cf k (s.start prog m0) (stOf s pr m) → (∀ p, pr p <:+ prog p) →
      (∀ p < s.n, st (c.proc p) = m p) → Built S c F ty s cf (s.start prog m0) pr st := by
  have hcolls := hs.colls hm hcf
  have hlt : ∀ {pr : Nat → List (CBody UInt8)}, (∀ p, pr p <:+ prog p) → ∀ {p b l}, pr p = b :: l → p < s.n := by
    intro pr hsuf p b l e
    by_contra h
    have := hsuf p
    rw [hs.out p (by omega), e] at this
    simpa using this
  have hpinj : ∀ {p q : Nat}, p < s.n → q < s.n → c.proc p = c.proc q → p = q := fun hp hq e =>
    Comm.proc_inj hn (hN ▸ hp) (hN ▸ hq) e
  intro d
  induction d with
  | zero =>
    intro pr m k st hd
    omega
  | succ d ih =>
    intro pr m k st hd h hsuf hst
    rcases (hs.inv hm hcf h).1 with hdn | ⟨st2, hstep⟩
    · have e : pr = fun _ => [] := by
        funext p
        exact List.map_eq_nil_iff.1 (hdn.1 p)
      subst e
      exact ⟨[], st, m, k, trivial, rfl, hst, fun _ _ _ => rfl, fun _ _ _ => rfl, h⟩
    have hx := XSteps.snoc h (XStep.sync _ _ hstep)
    have hl : NX.left s.n st2 < d := by
      have h0 : ∀ p, s.n ≤ p → (stOf s pr m).rem p = [] := by
        intro p hp
        have := hsuf p
        rw [hs.out p hp] at this
        show (pr p).map _ = []
        rw [List.suffix_nil.1 this]
        rfl
      have := (left_step (XStep.sync _ _ hstep) h0).1
      omega
    cases hstep with
    | recv p q n inn t vs c h hc hl => cases hc
    | loc p f t hr =>
      obtain ⟨b, l, e1, e2, e3⟩ := map_cons hr
      subst e3
      have hp := hlt hsuf e1
      rcases exec_loc e2 with ⟨op, rfl, rfl⟩ | ⟨i, o, op, a, d, k, rfl⟩
      swap
      · exact absurd ((hsuf p).subset (by rw [e1]; simp)) (hcolls.1 p i o op a d k)
      have he : (⟨upP (stOf s pr m).rem p (l.map (s.ctx p []).exec), (stOf s pr m).chan,
          upP (stOf s pr m).mem p ((op.run (MSt.ofMem ((stOf s pr m).mem p))).mem)⟩ : XState Mem UInt8) =
          stOf s (upP pr p l) (upP m p ((op.run (MSt.ofMem (m p))).mem)) := by
        unfold stOf
        simp only [stOf_up]
      have hl' := congrArg (NX.left s.n) he ▸ hl
      have hx' := he ▸ hx
      obtain ⟨es, st', m', k', b1, b2, b3, b4, b5, b6⟩ := ih (upP pr p l) _ _
        (update st (c.proc p) ((op.run (MSt.ofMem (st (c.proc p)))).mem)) hl' hx' (fun q => by
          unfold upP
          split
          · rename_i h; subst h; exact suffix_tail (e1 ▸ hsuf q)
          · exact hsuf q) (fun q hq => by
          unfold upP
          split
          · rename_i h; subst h; rw [update_self, hst q hq]
          · rename_i h; rw [update_of_ne (fun e => h (hpinj hq hp e)), hst q hq])
      refine ⟨.loc (c.proc p) (fun m => some ((op.run (MSt.ofMem m)).mem)) :: es, st', m', k', b1, ?_, b3, ?_, ?_, b6⟩
      · simp only [run, Ev.step, Option.map_some, Option.bind_some]
        exact b2
      · intro q hq x
        by_cases h : q = p
        · subst h
          simp only [proj, if_true, e1, tcpP]
          rw [b4 q hq]
          simp [upP]
        · have h' : c.proc p ≠ c.proc q := fun e => h (hpinj hp hq e).symm
          simp only [proj, if_neg h']
          rw [b4 q hq]
          simp [upP, h]
      · intro q hq x
        have h' : c.proc p ≠ q := fun e => hq (e ▸ Comm.proc_mem (hN ▸ hp))
        simp only [proj, if_neg h']
        exact b5 q hq x
    | meet p q n out inn t t' hne hp hq hc' hlen =>
      obtain ⟨b, l, e1, e2, e3⟩ := map_cons hp
      obtain ⟨b', l', e1', e2', e3'⟩ := map_cons hq
      subst e3 e3'
      have hpn := hlt hsuf e1
      have hqn := hlt hsuf e1'
      obtain ⟨a, d0, k1, rfl, rfl⟩ := exec_send e2
      obtain ⟨a', d1, k2, rfl, rfl, rfl⟩ := exec_recv e2'
      have hqp : q ≠ p := fun e => hne e.symm
      have he : (⟨upP (upP (stOf s pr m).rem p (l.map (s.ctx p []).exec)) q (l'.map (s.ctx q []).exec), (stOf s pr m).chan,
          upP (stOf s pr m).mem q (writeMem ((stOf s pr m).mem q) d1 (readMem ((stOf s pr m).mem p) a (k1 * s.es)))⟩ : XState Mem UInt8) =
          stOf s (upP (upP pr p l) q l') (upP m q (writeMem (m q) d1 (readMem (m p) a (k1 * s.es)))) := by
        unfold stOf
        simp only [stOf_up]
      have hl' := congrArg (NX.left s.n) he ▸ hl
      have hx' := he ▸ hx
      have hlen : k1 * s.es = k2 * s.es := by
        have : (readMem ((stOf s pr m).mem p) a (k1 * s.es)).length = k2 * s.es := hlen
        rwa [readMem_length] at this
      obtain ⟨es, st', m', k', b1, b2, b3, b4, b5, b6⟩ := ih (upP (upP pr p l) q l') _ _
        (update st (c.proc q) (writeMem (st (c.proc q)) d1 (readMem (st (c.proc p)) a (k1 * s.es)))) hl' hx' (fun r => by
          unfold upP
          split
          · rename_i h; subst h; exact suffix_tail (e1' ▸ hsuf r)
          · split
            · rename_i h; subst h; exact suffix_tail (e1 ▸ hsuf r)
            · exact hsuf r) (fun r hr => by
          unfold upP
          split
          · rename_i h; subst h; rw [update_self, hst r hr, hst p hpn]
          · rename_i h; rw [update_of_ne (fun e => h (hpinj hr hqn e)), hst r hr])
      have hp' := Comm.getElem?_proc (c := c) (hN ▸ hpn : p < c.tasks.length)
      have hq' := Comm.getElem?_proc (c := c) (hN ▸ hqn : q < c.tasks.length)
      refine ⟨.tr ⟨c, tSendRecv, p, q, 1⟩ false (fun m => readMem m a (k1 * ty.bytes)) (recvM d1 (k2 * ty.bytes)) :: es, st', m', k',
        ⟨⟨hc, hN ▸ hpn, hN ▸ hqn, hne⟩, b1⟩, ?_, b3, ?_, ?_, b6⟩
      · simp only [run, Ev.step, Chan.src, Chan.dst, hp', hq', recvM, readMem_length, ← hes, hlen, ne_eq, not_true, if_false,
          Option.map_some, Option.bind_some]
        rw [← hlen]
        exact b2
      · intro r hr x
        have hr' := Comm.getElem?_proc (c := c) (hN ▸ hr : r < c.tasks.length)
        by_cases h1 : r = p
        · subst h1
          have h2 : Chan.src ⟨c, tSendRecv, r, q, 1⟩ = some (c.proc r) := hr'
          simp only [proj, if_pos h2, e1, tcpP]
          rw [b4 r hr]
          simp [upP, hne]
        · have h2 : ¬ Chan.src ⟨c, tSendRecv, p, q, 1⟩ = some (c.proc r) := fun e => h1 ((rank_iff hn hr').mp e).symm
          by_cases h3 : r = q
          · subst h3
            have h4 : Chan.dst ⟨c, tSendRecv, p, r, 1⟩ = some (c.proc r) := hr'
            simp only [proj, if_neg h2, if_pos h4, e1', tcpP]
            congr 1
            funext b
            cases recvM d1 (k2 * ty.bytes) x b with
            | none => rfl
            | some y =>
              simp only
              rw [b4 r hr]
              simp [upP]
          · have h4 : ¬ Chan.dst ⟨c, tSendRecv, p, q, 1⟩ = some (c.proc r) := fun e => h3 ((rank_iff hn hr').mp e).symm
            simp only [proj, if_neg h2, if_neg h4]
            rw [b4 r hr]
            simp [upP, h1, h3]
      · intro r hr x
        have := proj_skip (p := r) es x [.tr ⟨c, tSendRecv, p, q, 1⟩ false (fun m => readMem m a (k1 * ty.bytes)) (recvM d1 (k2 * ty.bytes))]
          (fun e he => by rw [List.mem_singleton.1 he]; exact tr_off hr ..)
        exact Eq.trans this (b5 r hr x)
    | coll kc out inn t hN0 hco =>
      have hex : ∀ p, ∃ (r : Int) (op a d n : Nat) (l : List (CBody UInt8)), p < s.n → pr p = .comm (.red r op) a d n :: l ∧ kc = collNo r op ∧
          out p = (fun m => readMem m a (n * s.es)) ∧ t p = l.map (s.ctx p []).exec ∧
          inn p = fun m vs => if r = p ∨ r = -1 then writeMem m d (vs.take (n * s.es)) else m := by
        intro p
        by_cases hp : p < s.n
        · obtain ⟨b, l, e1, e2, e3⟩ := map_cons (hco p hp)
          obtain ⟨r, op, a, d, n, rfl, h1, h2, h3⟩ := exec_coll e2
          exact ⟨r, op, a, d, n, l, fun _ => ⟨e1, h1, h2, e3, h3⟩⟩
        · exact ⟨0, 0, 0, 0, 0, [], fun h => absurd h hp⟩
      choose rr oo aa dd nn ll hex using hex
      have hmem : ∀ p < s.n, .comm (.red (rr p) (oo p)) (aa p) (dd p) (nn p) ∈ prog p := fun p hp =>
        (hsuf p).subset (by rw [(hex p hp).1]; simp)
      obtain ⟨hu1, hop0, hr0, hr1⟩ := hcolls.2.1 0 _ _ _ _ _ (hmem 0 hN0)
      obtain ⟨hop1, hcfe⟩ := hu hu1
      obtain ⟨r, er⟩ : ∃ r, r = rr 0 := ⟨_, rfl⟩
      obtain ⟨n, en⟩ : ∃ n, n = nn 0 := ⟨_, rfl⟩
      have hsame : ∀ p < s.n, rr p = r ∧ oo p = 1 ∧ nn p = n := by
        intro p hp
        obtain ⟨_, h1, h2, _⟩ := hcolls.2.1 p _ _ _ _ _ (hmem p hp)
        obtain ⟨h3, h4⟩ := collNo_inj h2 hr0 ((hex p hp).2.1.symm.trans (hex 0 hN0).2.1)
        refine ⟨h3.trans er.symm, h1.trans hop1, ?_⟩
        have h5 := hmem p hp
        rw [h3, h4] at h5
        rw [en]
        exact hcolls.2.2 p 0 _ _ _ _ _ _ _ _ hp hN0 h5 (hmem 0 hN0)
      rw [← er] at hr0 hr1
      have hpr : ∀ p < s.n, pr p = .comm (.red r 1) (aa p) (dd p) n :: ll p := by
        intro p hp
        obtain ⟨h1, h2, h3⟩ := hsame p hp
        rw [(hex p hp).1, h1, h2, h3]
      -- root of the messages
      obtain ⟨R, eR⟩ : ∃ R, R = (r + 1).toNat - 1 := ⟨_, rfl⟩
      have hRn : R < s.n := by omega
      have hkc : (Nat.unpair kc).1 - 1 = R := by
        rw [(hex 0 hN0).2.1, ← er]
        unfold collNo
        rw [Nat.unpair_pair, eR]
      obtain ⟨v, ev⟩ : ∃ v, v = (others s.n R).foldl (fun a q => addVec F ty n a (readMem (m q) (aa q) (n * ty.bytes)))
          (readMem (m R) (aa R) (n * ty.bytes)) := ⟨_, rfl⟩
      have hvl : v.length = n * ty.bytes := by
        rw [ev]
        exact fold_addVec_length _ _ _ (fun q => readMem (m q) (aa q) (n * ty.bytes)) _ _ (readMem_length ..)
      have hcv : ∀ p, cf kc (fun q => out q (m q)) p = v := by
        intro p
        rw [hcf.loc kc _ (fun q => readMem (m q) (aa q) (n * ty.bytes)) p (fun q hq => by
          obtain ⟨_, _, h3⟩ := hsame q hq
          rw [(hex q hq).2.2.1, h3, hes]), hcfe]
        unfold mmCf
        simp only [hkc, if_pos hRn, readMem_length]
        rw [Nat.mul_div_cancel _ (bytes_pos ty), ev]
      obtain ⟨m2, em2⟩ : ∃ m2 : Nat → Mem, m2 = fun p => if p < s.n ∧ (r = p ∨ r = -1) then writeMem (m p) (dd p) v else m p := ⟨_, rfl⟩
      have he : (⟨fun p => if p < s.n then t p else (stOf s pr m).rem p, (stOf s pr m).chan,
          fun p => if p < s.n then inn p ((stOf s pr m).mem p) (cf kc (fun q => out q ((stOf s pr m).mem q)) p) else (stOf s pr m).mem p⟩ :
            XState Mem UInt8) = stOf s (fun p => if p < s.n then ll p else pr p) m2 := by
        unfold stOf
        congr 1
        · funext p
          by_cases hp : p < s.n
          · simp only [if_pos hp]; exact (hex p hp).2.2.2.1
          · simp only [if_neg hp]
        · funext p
          rw [em2]
          by_cases hp : p < s.n
          · simp only [if_pos hp, hcv, hp, true_and]
            obtain ⟨h1, _, h3⟩ := hsame p hp
            rw [(hex p hp).2.2.2.2, h1, h3, hes]
            simp only [if_true]
            rw [List.take_of_length_le (Nat.le_of_eq hvl)]
          · simp only [if_neg hp, hp, false_and, if_false]
      have hl' := congrArg (NX.left s.n) he ▸ hl
      have hx' := he ▸ hx
      have hidx : ∀ p < s.n, c.tasks.idxOf (c.proc p) = p := fun p hp => by
        have h1 := Comm.proc_mem (c := c) (hN ▸ hp : p < c.tasks.length)
        exact Comm.proc_inj hn (List.idxOf_lt_length_of_mem h1) (hN ▸ hp) (Comm.proc_idxOf h1)
      obtain ⟨st1, est1⟩ : ∃ st1, st1 = update st (c.proc R) (writeMem (st (c.proc R)) (dd R) v) := ⟨_, rfl⟩
      obtain ⟨st2, est2⟩ : ∃ st2, st2 = if r = -1 then (fun p => if p ∈ c.tasks ∧ p ≠ c.proc R then
          writeMem (st1 p) (dd (c.tasks.idxOf p)) (readMem (st1 (c.proc R)) (dd R) (n * ty.bytes)) else st1 p) else st1 := ⟨_, rfl⟩
      have hv1 : readMem (st1 (c.proc R)) (dd R) (n * ty.bytes) = v := by
        rw [est1, update_self]
        exact read_write _ _ hvl
      have hst2 : ∀ p < s.n, st2 (c.proc p) = m2 p := by
        intro p hp
        rw [est2, em2]
        by_cases hr : r = -1
        · simp only [if_pos hr, hp, hr, or_true, and_self, if_true]
          by_cases hpR : p = R
          · subst hpR
            simp only [ne_eq, not_true, and_false, if_false]
            rw [est1, update_self, hst p hp]
          · have h1 : c.proc p ≠ c.proc R := fun e => hpR (hpinj hp hRn e)
            rw [if_pos ⟨Comm.proc_mem (hN ▸ hp), h1⟩, hv1, hidx p hp, est1, update_of_ne h1, hst p hp]
        · rw [if_neg hr]
          simp only [hp, hr, or_false, true_and]
          by_cases hpR : p = R
          · rw [hpR] at hp ⊢
            rw [if_pos (show r = (R : Int) by omega), est1, update_self, hst R hp]
          · rw [if_neg (show ¬ r = (p : Int) by omega), est1, update_of_ne (fun e => hpR (hpinj hp hRn e)), hst p hp]
      obtain ⟨es, st', m', k', b1, b2, b3, b4, b5, b6⟩ := ih (fun p => if p < s.n then ll p else pr p) _ _ st2 hl' hx' (fun p => by
        split
        · rename_i hp; exact suffix_tail (hpr p hp ▸ hsuf p)
        · exact hsuf p) hst2
      have b4' : ∀ p < s.n, ∀ x, proj (c.proc p) es x = tcpP F ty c p (ll p) x := by
        intro p hp x
        rw [b4 p hp]
        simp only [if_pos hp]
      have hR' : R < c.tasks.length := hN ▸ hRn
      have hrun1 : ∀ es', run (redE F ty c R .sum n aa dd ++ es') st = run es' st1 := by
        intro es'
        rw [run_redE hn hR', est1, ev, hN, hst R hRn]
        have : ∀ a : Body, (others s.n R).foldl (fun a r => addVec F ty n a (readMem (st (c.proc r)) (aa r) (n * ty.bytes))) a =
            (others s.n R).foldl (fun a r => addVec F ty n a (readMem (m r) (aa r) (n * ty.bytes))) a := by
          intro a
          apply List.foldl_ext
          intro a q hq
          rw [hst q (mem_others.1 hq).1]
        rw [this]
      by_cases hr : r = -1
      · have hR0 : R = 0 := by omega
        refine ⟨redE F ty c R .sum n aa dd ++ (bcE c R (n * ty.bytes) dd ++ es), st', m', k', redE_wf hc hR' (bcE_wf hc hR' b1), ?_, b3, ?_, ?_, b6⟩
        · rw [hrun1, run_bcE hn hR', ← b2, est2, if_pos hr]
        · intro p hp x
          have hp' : p < c.tasks.length := hN ▸ hp
          rw [redE_proj hn hp' hR', hpr p hp]
          simp only [tcpP, reduceM, opOf, if_pos hr, hR0]
          congr 1
          funext y
          rw [bcE_proj hn hp' (hR0 ▸ hR')]
          congr 1
          funext z
          exact b4' p hp z
        · intro p hp x
          rw [proj_skip _ _ _ (redE_off hp hR'), proj_skip _ _ _ (bcE_off hp)]
          exact b5 p hp x
      · have hR0 : r.toNat = R := by omega
        refine ⟨redE F ty c R .sum n aa dd ++ es, st', m', k', redE_wf hc hR' b1, ?_, b3, ?_, ?_, b6⟩
        · rw [hrun1, ← b2, est2, if_neg hr]
        · intro p hp x
          have hp' : p < c.tasks.length := hN ▸ hp
          rw [redE_proj hn hp' hR', hpr p hp]
          simp only [tcpP, reduceM, opOf, if_neg hr, hR0]
          congr 1
          funext y
          exact b4' p hp y
        · intro p hp x
          rw [proj_skip _ _ _ (redE_off hp hR')]
          exact b5 p hp x

end Laik.Tc
