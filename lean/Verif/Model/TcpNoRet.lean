import Verif.Model.TcpBuild
/-!
# Programs which cannot finish
-/

namespace Laik.Tc

open Laik.Mm Laik.Mp Function

/-- No end without error can be reached. -/
def NoRet {σ : Type} : Mm.Prog σ → Prop
  | .ret _ => False
  | .err => True
  | .send _ k => NoRet k
  | .ssend _ k => NoRet k
  | .recv _ k => ∀ b, NoRet (k b)
  | .fork _ k => NoRet k
  | .join k => NoRet k

theorem NoRet.step {σ : Type} {A : Nat} {L : Item → Prop} {τ υ : Sys σ} (hs : Mm.Step A L τ υ) {p : Nat}
    (h : NoRet (τ.proc p).pc.abs) : NoRet (υ.proc p).pc.abs := by
  have key : ∀ (q : Nat) (P : Proc σ), (NoRet (τ.proc q).pc.abs → NoRet P.pc.abs) → NoRet (update τ.proc q P p).pc.abs := by
    intro q P hP
    by_cases e : p = q
    · subst e; rw [update_self]; exact hP h
    · rw [update_of_ne e]; exact h
  cases hs with
  | push q r m k hk hq => exact key _ _ fun h => by rw [hk] at h; exact h
  | unblock q k hk hb => exact key _ _ fun h => by rw [hk] at h; exact h
  | sync q r m k hk hq => exact key _ _ fun h => by rw [hk] at h; exact h
  | addSend => exact h
  | addRecv => exact key _ _ fun h => h
  | addDone q r hd k hk hn => exact key _ _ fun h => by rw [hk] at h; exact h
  | syncGone q r hd k hk hb => exact key _ _ fun h => by rw [hk] at h; exact h
  | ask q r m k hk hq => exact key _ _ fun h => by rw [hk] at h; exact h
  | hit q r m hd att k b hk ha hb => exact key _ _ fun h => by rw [hk] at h; exact h b
  | miss q r m hd att k hk ha hb => exact key _ _ fun h => by rw [hk] at h; exact h
  | fail q r m hd att k hk ha => exact key _ _ fun h => by rw [hk] at h; exact h
  | deadSend => exact key _ _ fun _ => trivial
  | deadRecv => exact key _ _ fun _ => trivial
  | fork q ms k hk hb hc => exact key _ _ fun h => by rw [hk] at h; exact h
  | bgPush => exact key _ _ fun h => h
  | deadBg => exact key _ _ fun _ => trivial
  | bgUnblock => exact key _ _ fun h => h
  | join q k hk hb hc => exact key _ _ fun h => by rw [hk] at h; exact h
  | trySend => exact h
  | tryDrop => exact h
  | tryRecv => exact key _ _ fun h => h
  | tryRefuse => exact h
  | disc => exact key _ _ fun h => h
  | getSend => exact h
  | getNone => exact h
  | getRecv => exact key _ _ fun h => h
  | lose => exact h

theorem NoRet.steps {σ : Type} {A : Nat} {L : Item → Prop} {τ υ : Sys σ} (hs : Mm.Steps A L τ υ) {p : Nat}
    (h : NoRet (τ.proc p).pc.abs) : NoRet (υ.proc p).pc.abs := by
  induction hs with
  | refl => exact h
  | tail _ hs ih => exact NoRet.step hs ih

variable {c : Comm} {F : Flt} {ty : MTy}

theorem NoRet.recvAll {σ : Type} {rank t : Nat} {upd : σ → Body → Option σ} {k : σ → Mm.Prog σ} (hk : ∀ x, NoRet (k x)) :
    ∀ (l : List Nat) (x : σ), NoRet (Mm.recvAll c rank t upd l x k) := by
  intro l
  induction l with
  | nil => exact hk
  | cons r l ih =>
    intro x b
    dsimp only
    split
    · exact ih _
    · trivial

theorem NoRet.sendAll {σ : Type} {rank t : Nat} {b : Body} {k : Mm.Prog σ} (hk : NoRet k) :
    ∀ l : List Nat, NoRet (Mm.sendAll c rank t b l k) := by
  intro l
  induction l with
  | nil => exact hk
  | cons r l ih => exact ih

theorem NoRet.redP {rank root s d n : Nat} {op : Mm.MOp} {k : Mem → Mm.Prog Mem} (hk : ∀ x, NoRet (k x)) (m : Mem) :
    NoRet (redP F ty c rank root op s d n m k) := by
  unfold Tc.redP
  split
  · exact NoRet.recvAll hk _ _
  · exact hk m

theorem NoRet.bcP {rank root len d : Nat} {k : Mem → Mm.Prog Mem} (hk : ∀ x, NoRet (k x)) (m : Mem) :
    NoRet (bcP c rank root len d m k) := by
  unfold Tc.bcP
  split
  · exact NoRet.sendAll (hk m) _
  · intro b
    dsimp only
    split
    · exact hk _
    · trivial

theorem NoRet.reduceM {rank op s d n : Nat} {root : Int} {k : Mem → Mm.Prog Mem} (hk : ∀ x, NoRet (k x)) (m : Mem) :
    NoRet (reduceM F ty c rank root op s d n m k) := by
  unfold Tc.reduceM
  split
  · trivial
  · split
    · exact NoRet.redP (fun x => NoRet.bcP hk x) m
    · exact NoRet.redP hk m

/-- At the root, a reduction which is no sum is not done. -/
theorem NoRet.root {rank s d n : Nat} {op : Mm.MOp} (hop : op ≠ .sum) (hc : 2 ≤ c.tasks.length)
    (k : Mem → Mm.Prog Mem) (m : Mem) : NoRet (Tc.redP F ty c rank rank op s d n m k) := by
  have hl : others c.tasks.length rank ≠ [] := by
    intro e
    have h1 : (if rank = 0 then 1 else 0) ∈ others c.tasks.length rank := mem_others.mpr ⟨by split <;> omega, by split <;> omega⟩
    rw [e] at h1
    cases h1
  obtain ⟨r, rs, hrs⟩ := List.exists_cons_of_ne_nil hl
  unfold Tc.redP
  rw [if_pos rfl, hrs]
  intro b
  have hg : redGot F ty op d n (redInit s d (n * ty.bytes) m) b = none := by
    unfold redGot
    split
    · rfl
    · cases op with
      | sum => exact absurd rfl hop
      | _ => rfl
  simp only [hg]
  trivial

theorem NoRet.tcpP {rank a d k op : Nat} {r : Int} (hop : opOf op ≠ some .sum) (hr : r = rank ∨ (r = -1 ∧ rank = 0))
    (hrank : rank < c.tasks.length) (hc : 2 ≤ c.tasks.length) :
    ∀ (l : List (CBody UInt8)), .comm (.red r op) a d k ∈ l → ∀ m, NoRet (Tc.tcpP F ty c rank l m) := by
  intro l
  induction l with
  | nil => intro h; cases h
  | cons x l ih =>
    intro h m
    rcases List.mem_cons.1 h with rfl | h
    · simp only [Tc.tcpP, Tc.reduceM]
      split
      · trivial
      · rename_i o ho
        have hos : o ≠ .sum := fun e => hop (e ▸ ho)
        rcases hr with rfl | ⟨rfl, rfl⟩
        · rw [if_neg (by omega), Int.toNat_natCast]
          exact NoRet.root hos hc _ _
        · rw [if_pos rfl]
          exact NoRet.root hos hc _ _
    · have ih := ih h
      cases x with
      | other op => exact ih _
      | comm k s d n =>
        cases k with
        | send q => exact ih m
        | recv q =>
          intro b
          dsimp only
          split
          · exact ih _
          · trivial
        | red r op => exact NoRet.reduceM ih m
        | gred => exact trivial

end Laik.Tc
