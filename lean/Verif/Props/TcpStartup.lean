import Verif.Model.TcpStartup
import Verif.Model.TcpStartupLemmas

/-!
# C72: starting together with the TCP2 backend

Whatever the order in which the processes run, the first world is the same for
all of them, nobody begins before everybody accepts connections, and the startup
ends. This needs host names of at most 30 characters; with a longer one the
process gives up.
-/

namespace Laik.Su

/-- Three processes named `n0`, `n1`, `n2` and a master `m`, for examples. -/
def exWho (p : Nat) : Who := ⟨['n', ':', Nat.digitChar p], ['n'], 4000 + p, p = 1⟩

def exMaster : Who := ⟨['m', ':', '9'], ['m'], 7777, true⟩

/-- A whole startup of a world of three: process 2 is heard before process 0,
process 1 comes too late. -/
def exRun : List Ev :=
  [.master 2, .peer 2, .master 0, .master 1, .main, .peer 2, .peer 2, .peer 0, .peer 2,
   .master 2, .peer 0, .peer 0, .peer 0, .master 0, .main, .peer 0, .peer 2]

/-- Result of a run looked at with `f`. -/
def see {α : Type} (r : Except Bad Sys) (f : Sys → α) : Option α :=
  match r with
  | .ok s => some (f s)
  | .error _ => none

/-- No assertion fails, in any order of events, if no host name is longer than 30
characters and not more than `MAX_PEERS` processes are wanted. The claim without
the limit on host names is false: `C72_long_host`. -/
theorem C72_no_fault_partial (N P : Nat) (hN : 2 ≤ N) (hmax : N ≤ 256) (mw : Who)
    (who : Nat → Who) (hs : ∀ p, p < P → (who p).host.length ≤ 30) (es : List Ev) :
    run N es (start mw who P) ≠ .error .assert := by
  rcases Inv_run hN hmax hs es (Inv_start hN mw who) with h | ⟨s', h, _⟩
  · rw [h]; simp
  · rw [h]; simp

example : (run 3 exRun (start exMaster exWho 3)).isOk = true := by decide +kernel

/-- A process whose host name is longer than 30 characters gives up when it gets
its number: the master was told the cut name and sends it back
(src/backend-tcp2.c:1807 and 1155). -/
theorem C72_long_host (N P : Nat) (hN : 2 ≤ N) (mw : Who) (who : Nat → Who) (p : Nat)
    (hp : p < P) (hlong : 30 < (who p).host.length) :
    run N [.master p, .peer p] (start mw who P) = .error .assert := by
  have hne : (who p).host.take 30 ≠ (who p).host := by
    intro h
    have := congrArg List.length h
    rw [List.length_take] at this
    omega
  have h1 : ¬ maxPeers ≤ 0 + 1 := by decide
  simp [run, step, masterStep, start, hp, registerMsg, gotRegister, newMaster, h1, peerStep,
    send, upd, recv, gotId, newProc, tag, hne, Except.map]

example : 30 < (List.replicate 31 'h').length := by decide

/-- Numbers are given in the order in which the master heard from the processes,
each to one process. -/
theorem C72_number (N P : Nat) (hN : 2 ≤ N) (hmax : N ≤ 256) (mw : Who)
    (who : Nat → Who) (hs : ∀ p, p < P → (who p).host.length ≤ 30) (es : List Ev) (s : Sys)
    (hr : run N es (start mw who P) = .ok s) (p l : Nat) (hl : (s.proc p).mylid = some l) :
    1 ≤ l ∧ (joined N es)[l - 1]? = some p := by
  rcases Inv_run hN hmax hs es (Inv_start hN mw who) with h | ⟨s', h, hI, _⟩
  · rw [hr] at h; cases h
  · rw [hr] at h
    injection h with h
    subst h
    by_cases hp : p ∈ s.m.reg
    · obtain ⟨i, hi, hip⟩ := List.getElem_of_mem hp
      have hi' : s.m.reg[i]? = some p := by rw [← hip]; simp
      obtain ⟨k, _, hat, _⟩ := (hI.used i p hi').at_
      by_cases h0 : k = 0
      · rw [hat.zero h0] at hl; cases hl
      · rw [hat.mylid (by omega)] at hl
        injection hl with hl
        subst hl
        refine ⟨by omega, ?_⟩
        rw [joined, ← hI.hreg]
        simpa using hi'
    · rw [(hI.free p hp).proc] at hl; cases hl

/-- Every process that leaves the startup has the same table of all processes of
the world, a world of the wanted size, and its own number in it. -/
theorem C72_table (N P : Nat) (hN : 2 ≤ N) (hmax : N ≤ 256) (mw : Who)
    (who : Nat → Who) (hs : ∀ p, p < P → (who p).host.length ≤ 30) (es : List Ev) (s : Sys)
    (hr : run N es (start mw who P) = .ok s) (p : Nat) (hl : left (s.proc p) = true) :
    (joined N es).length + 1 = N ∧
    (∀ q, (s.proc p).table q = if q < N then entry mw who (joined N es) q else none) ∧
    ∃ i, (joined N es)[i]? = some p ∧ firstWorld (s.proc p) = .ok (N, i + 1) ∧
      some (s.proc p).me = entry mw who (joined N es) (i + 1) := by
  rcases Inv_run hN hmax hs es (Inv_start hN mw who) with h | ⟨s', h, hI, _⟩
  · rw [hr] at h; cases h
  · rw [hr] at h
    injection h with h
    subst h
    by_cases hp : p ∈ s.m.reg
    swap
    · rw [(hI.free p hp).proc] at hl; cases hl
    obtain ⟨i, hi, hip⟩ := List.getElem_of_mem hp
    have hi' : s.m.reg[i]? = some p := by rw [← hip]; simp
    obtain ⟨k, hk, hat, _⟩ := (hI.used i p hi').at_
    have hph : (s.proc p).phase = true := by
      simp only [left, Bool.and_eq_true] at hl; exact hl.2
    have hkN : k = N + 2 := by
      rw [hat.phase] at hph; simpa using hph
    subst hkN
    have hst : s.m.stage ≠ 0 := by
      intro h0
      rw [h0] at hk
      simp [avail] at hk
    have hlen := hI.all hst
    have hiN : i + 1 < N := by omega
    have htk : (ids N (i + 1)).take (N + 2 - 1) = ids N (i + 1) :=
      List.take_of_length_le (by rw [ids_length hiN]; omega)
    have hJ : joined N es = s.m.reg := hI.hreg.symm
    have hmem : ∀ q, (q = i + 1 ∨ q ∈ ids N (i + 1)) ↔ q < N := by
      intro q; rw [mem_ids]; omega
    rw [hJ]
    refine ⟨hlen, ?_, i, hi', ?_, hat.me (by omega)⟩
    · intro q
      rw [hat.table q (by omega), htk]
      simp only [hmem q]
    · have hsz := hat.size (by omega)
      rw [htk] at hsz
      have hsize : (s.proc p).size = N := by
        have h1 := hsz.1
        have h2 := hsz.2.1
        have h3 := hsz.2.2 (N - 1)
        by_cases hq : N - 1 = i + 1
        · omega
        · have := h3 (mem_ids.2 ⟨by omega, hq⟩)
          omega
      have hml := hat.mylid (by omega)
      have hfs : ∀ q, q < N → finalState (s.proc p) q = .noConnect := by
        intro q hq
        unfold finalState
        rw [hml]
        by_cases hqi : q = i + 1
        · subst hqi; simp
        · have e : (s.proc p).st q = .noConnect := by
            rw [hat.st q (by omega), htk, if_neg hqi, if_pos (mem_ids.2 ⟨hq, hqi⟩)]
          have hne : ¬ (some (i + 1) = some q) := by simp; omega
          simp [hne, e]
      have hsts : (List.range N).map (finalState (s.proc p)) = List.replicate N .noConnect := by
        rw [List.eq_replicate_iff]
        refine ⟨by simp, ?_⟩
        intro b hb
        obtain ⟨q, hq, rfl⟩ := List.mem_map.1 hb
        exact hfs q (List.mem_range.1 hq)
      have hpe : (s.proc p).peers + 1 = N := by rw [hat.peers]; omega
      simp [firstWorld, hsize, hsts, hpe, hml, List.count_replicate]

example : see (run 3 exRun (start exMaster exWho 3)) (fun s =>
    ([0, 1, 2].map fun p => left (s.proc p), s.m.stage, joined 3 exRun)) =
    some ([true, false, true], 2, [2, 0]) := by decide +kernel

example : see (run 3 exRun (start exMaster exWho 3)) (fun s =>
    [2, 0].map fun p => [0, 1, 2, 3].map (s.proc p).table) =
    some
      [[some ⟨['L', '0', ':', 'm', ':', '9'], ['m'], 7777, true⟩,
        some ⟨['L', '1', ':', 'n', ':', '2'], ['n'], 4002, false⟩,
        some ⟨['L', '2', ':', 'n', ':', '0'], ['n'], 4000, false⟩, none],
       [some ⟨['L', '0', ':', 'm', ':', '9'], ['m'], 7777, true⟩,
        some ⟨['L', '1', ':', 'n', ':', '2'], ['n'], 4002, false⟩,
        some ⟨['L', '2', ':', 'n', ':', '0'], ['n'], 4000, false⟩, none]] := by
  decide +kernel

/-- The master's table is the same one, and it begins with a full world only. -/
theorem C72_master (N P : Nat) (hN : 2 ≤ N) (hmax : N ≤ 256) (mw : Who)
    (who : Nat → Who) (hs : ∀ p, p < P → (who p).host.length ≤ 30) (es : List Ev) (s : Sys)
    (hr : run N es (start mw who P) = .ok s) :
    (∀ q, s.m.table q = entry mw who (joined N es) q) ∧
    (s.m.stage = 2 → (joined N es).length + 1 = N ∧ s.m.reg = joined N es) := by
  rcases Inv_run hN hmax hs es (Inv_start hN mw who) with h | ⟨s', h, hI, _⟩
  · rw [hr] at h; cases h
  · rw [hr] at h
    injection h with h
    subst h
    have hJ : joined N es = s.m.reg := hI.hreg.symm
    rw [hJ]
    exact ⟨hI.table, fun h2 => ⟨hI.all (by omega), rfl⟩⟩

/-- Nobody begins before everybody is ready: when the master or any other process
leaves the startup, all members know all members and accept connections. -/
theorem C72_ready_first (N P : Nat) (hN : 2 ≤ N) (hmax : N ≤ 256) (mw : Who)
    (who : Nat → Who) (hs : ∀ p, p < P → (who p).host.length ≤ 30) (es : List Ev) (s : Sys)
    (hr : run N es (start mw who P) = .ok s)
    (hb : s.m.stage = 2 ∨ ∃ p, left (s.proc p) = true) :
    (joined N es).length + 1 = N ∧
    ∀ p ∈ joined N es, (s.proc p).mystate = .ready ∧
      ∀ q, q < N → (s.proc p).table q = entry mw who (joined N es) q ∧
        ((s.proc p).table q).isSome := by
  rcases Inv_run hN hmax hs es (Inv_start hN mw who) with h | ⟨s', h, hI, _⟩
  · rw [hr] at h; cases h
  · rw [hr] at h
    injection h with h
    subst h
    have hJ : joined N es = s.m.reg := hI.hreg.symm
    have h2 : s.m.stage = 2 := by
      rcases hb with h | ⟨p, hl⟩
      · exact h
      · by_cases hp : p ∈ s.m.reg
        · obtain ⟨i, hi, hip⟩ := List.getElem_of_mem hp
          have hi' : s.m.reg[i]? = some p := by rw [← hip]; simp
          obtain ⟨k, hk, hat, _⟩ := (hI.used i p hi').at_
          have hph : (s.proc p).phase = true := by
            simp only [left, Bool.and_eq_true] at hl; exact hl.2
          have hkN : k = N + 2 := by
            rw [hat.phase] at hph; simpa using hph
          have h3 := hI.stage
          by_contra hc
          have hle : avail N s.m.stage ≤ N + 1 := by
            unfold avail
            by_cases h0 : s.m.stage = 0
            · rw [if_pos h0]; omega
            · rw [if_neg h0, if_pos (by omega)]; exact Nat.le_refl _
          omega
        · rw [(hI.free p hp).proc] at hl; cases hl
    have hlen := hI.all (by omega)
    have hfin := hI.fin h2
    rw [hJ]
    refine ⟨hlen, ?_⟩
    intro p hp
    obtain ⟨i, hi, hip⟩ := List.getElem_of_mem hp
    have hi' : s.m.reg[i]? = some p := by rw [← hip]; simp
    have hu := hI.used i p hi'
    have hiN : i + 1 < N := by omega
    have hall : s.m.st (i + 1) = .ready := by
      have : (List.range s.m.reg.length).countP (fun i => decide (s.m.st (i + 1) = .ready))
          = (List.range s.m.reg.length).length := by
        rw [← hI.count, List.length_range]; omega
      simpa using List.countP_eq_length.1 this i (List.mem_range.2 hi)
    have hrd := hu.rdy hall
    refine ⟨hrd, ?_⟩
    obtain ⟨k, hk, hat, _⟩ := hu.at_
    have hkN := (ready_full hat).1 hrd
    intro q hq
    have htk : (ids N (i + 1)).take (k - 1) = ids N (i + 1) :=
      List.take_of_length_le (by rw [ids_length hiN]; omega)
    have e : (s.proc p).table q = entry mw who s.m.reg q := by
      rw [hat.table q (by omega), htk, if_pos (by rw [mem_ids]; omega)]
    exact ⟨e, e ▸ entry_some (by omega)⟩

/-- A state in which a process left before the other did. -/
example : see (run 3 (exRun.dropLast) (start exMaster exWho 3)) (fun s =>
    [0, 2].map fun p => left (s.proc p)) = some [true, false] := by decide +kernel

/-- A process heard too late is put into the queue, and neither it nor one not
heard at all gets anything. -/
theorem C72_late (N P : Nat) (hN : 2 ≤ N) (hmax : N ≤ 256) (mw : Who)
    (who : Nat → Who) (hs : ∀ p, p < P → (who p).host.length ≤ 30) (es : List Ev) (s : Sys)
    (hr : run N es (start mw who P) = .ok s) (p : Nat) (hp : p ∉ joined N es) :
    s.proc p = newProc (who p) ∧ s.toP p = [] ∧
      (s.m.queued p = true ↔ p ∈ heard es []) := by
  rcases Inv_run hN hmax hs es (Inv_start hN mw who) with h | ⟨s', h, hI, _⟩
  · rw [hr] at h; cases h
  · rw [hr] at h
    injection h with h
    subst h
    rw [joined, ← hI.hreg] at hp
    have hf := hI.free p hp
    refine ⟨hf.proc, hf.toP, ?_⟩
    rw [hI.hmem p]
    simp [hp]

example : see (run 3 exRun (start exMaster exWho 3)) (fun s => s.m.queued 1) = some true := by
  decide +kernel

/-- With too few processes nobody ever leaves the startup. -/
theorem C72_few (N P : Nat) (hN : 2 ≤ N) (hmax : N ≤ 256) (mw : Who)
    (who : Nat → Who) (hs : ∀ p, p < P → (who p).host.length ≤ 30) (es : List Ev) (s : Sys)
    (hr : run N es (start mw who P) = .ok s) (hP : P + 1 < N) :
    s.m.stage = 0 ∧ ∀ p, left (s.proc p) = false := by
  have hrf := C72_ready_first N P hN hmax mw who hs es s hr
  rcases Inv_run hN hmax hs es (Inv_start hN mw who) with h | ⟨s', h, hI, _⟩
  · rw [hr] at h; cases h
  · rw [hr] at h
    injection h with h
    subst h
    have hlt : s.m.reg.length ≤ P := by
      have hsub : s.m.reg ⊆ List.range P := fun p hp => List.mem_range.2 (hI.lt p hp)
      have := (hI.nodup.subperm hsub).length_le
      simpa using this
    have hJ : joined N es = s.m.reg := hI.hreg.symm
    refine ⟨?_, ?_⟩
    · by_contra hc
      have := hI.all hc
      omega
    · intro p
      by_contra hc
      have := (hrf (Or.inr ⟨p, by simpa using hc⟩)).1
      rw [hJ] at this
      omega

example : see (run 3 [.master 0, .peer 0] (start exMaster exWho 1)) (fun s => s.m.reg) =
    some [0] := by decide +kernel

/-- No run is longer than this, whatever the order. -/
theorem C72_bound (N P : Nat) (hN : 2 ≤ N) (hmax : N ≤ 256) (mw : Who)
    (who : Nat → Who) (hs : ∀ p, p < P → (who p).host.length ≤ 30) (es : List Ev) (s : Sys)
    (hr : run N es (start mw who P) = .ok s) :
    es.length ≤ P * (2 * (N + 2) + 1) + 2 := by
  rcases Inv_run hN hmax hs es (Inv_start hN mw who) with h | ⟨s', h, _, hb⟩
  · rw [hr] at h; cases h
  · have e : pot N P (start mw who P) = P * (2 * (N + 2) + 1) + 2 := by
      have : (List.range P).map (weight N (start mw who P)) =
          List.replicate P (2 * (N + 2) + 1) := by
        rw [List.eq_replicate_iff]
        refine ⟨by simp, ?_⟩
        intro b hb
        obtain ⟨q, hq, rfl⟩ := List.mem_map.1 hb
        have := List.mem_range.1 hq
        simp [weight, start, newProc, cnt, this]
      unfold pot
      rw [this]
      simp [start, newMaster]
    omega

/-- The startup never gets stuck: from whatever has happened, with enough
processes, it goes on until the master and all members have left it. -/
theorem C72_completes (N P : Nat) (hN : 2 ≤ N) (hmax : N ≤ 256) (hP : N ≤ P + 1) (mw : Who)
    (who : Nat → Who) (hs : ∀ p, p < P → (who p).host.length ≤ 30) (es : List Ev) (s : Sys)
    (hr : run N es (start mw who P) = .ok s) :
    ∃ es' s', run N es' s = .ok s' ∧ s'.m.stage = 2 ∧ s'.m.reg.length + 1 = N ∧
      ∀ p ∈ s'.m.reg, left (s'.proc p) = true := by
  rcases Inv_run hN hmax hs es (Inv_start hN mw who) with h | ⟨s', h, hI, hb⟩
  · rw [hr] at h; cases h
  rw [hr] at h
  injection h with h
  subst h
  clear hr hb
  generalize hn : pot N P s = n
  generalize heard es [] = H at hI
  induction n using Nat.strongRecOn generalizing s H with
  | _ n ih =>
    by_cases hidle : ∀ e, step N e s = .error .idle
    · have := progress hN hP hI hidle
      exact ⟨[], s, rfl, this.1, hI.all (by omega), this.2⟩
    · obtain ⟨e, he⟩ := not_forall.1 hidle
      rcases Inv_step hN hmax hs hI e with h1 | ⟨s1, h1, h2, h3⟩
      · exact absurd h1 he
      · obtain ⟨es', s', a, b⟩ := ih (pot N P s1) (by omega) s1 rfl (hear e H) h2
        exact ⟨e :: es', s', by simp [run, h1, a], b⟩

/-- As long as not all have left, something can happen next, whatever it is. -/
theorem C72_goes_on (N P : Nat) (hN : 2 ≤ N) (hmax : N ≤ 256) (hP : N ≤ P + 1) (mw : Who)
    (who : Nat → Who) (hs : ∀ p, p < P → (who p).host.length ≤ 30) (es : List Ev) (s : Sys)
    (hr : run N es (start mw who P) = .ok s)
    (hnot : s.m.stage ≠ 2 ∨ ∃ p ∈ joined N es, left (s.proc p) = false) :
    ∃ e s', run N (es ++ [e]) (start mw who P) = .ok s' := by
  rcases Inv_run hN hmax hs es (Inv_start hN mw who) with h | ⟨s', h, hI, _⟩
  · rw [hr] at h; cases h
  have hrun : ∀ (es : List Ev) (a b : Sys) (e : Ev), run N es a = .ok b →
      run N (es ++ [e]) a = step N e b := by
    intro es
    induction es with
    | nil =>
      intro a b e h
      simp only [run] at h
      injection h with h
      subst h
      simp only [List.nil_append, run]
      cases step N e a <;> rfl
    | cons x xs ih =>
      intro a b e h
      simp only [List.cons_append, run] at h ⊢
      cases hx : step N x a with
      | error b => rw [hx] at h; cases h
      | ok c => rw [hx] at h; exact ih c b e h
  rw [hr] at h
  injection h with h
  subst h
  by_cases hidle : ∀ e, step N e s = .error .idle
  · exfalso
    have := progress hN hP hI hidle
    rcases hnot with hx | ⟨p, hp, hx⟩
    · exact hx this.1
    · rw [joined, ← hI.hreg] at hp
      rw [this.2 p hp] at hx
      cases hx
  · obtain ⟨e, he⟩ := not_forall.1 hidle
    rcases Inv_step hN hmax hs hI e with h1 | ⟨s1, h1, _⟩
    · exact absurd h1 he
    · exact ⟨e, s1, by rw [hrun es _ _ e hr, h1]⟩

end Laik.Su
