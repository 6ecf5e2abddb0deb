import Verif.Model.Profiling
/-!
# What calls to functions for profiling mean, from the calls made before

Lists of past calls have the newest call first.
-/

namespace Laik.Pf

/-- The instance to be measured. -/
def curr : List Op → Option Nat
  | [] => none
  | .enable i :: _ => i
  | .enableFile i _ :: _ => i
  | _ :: h => curr h

/-- Instance was finalized. -/
def Gone (h : List Op) (i : Nat) : Prop := Op.finalize i ∈ h

instance (h : List Op) (i : Nat) : Decidable (Gone h i) := by unfold Gone; infer_instance

/-- No instance measured which is finalized. -/
def CurrLive (h : List Op) : Prop := ∀ i, curr h = some i → ¬ Gone h i

/-- When a call is allowed: no access to finalized instances, also not to the one measured
last; printing needs an instance which is measured, and files can be opened. -/
def SafeOp (h : List Op) : Op → Prop
  | .enable i => (i = none ∨ i ≠ curr h) → CurrLive h ∧ ∀ j, i = some j → ¬ Gone h j
  | .enableFile i ok => (i = none ∨ i ≠ curr h) → CurrLive h ∧ ∀ j, i = some j → ¬ Gone h j ∧ ok = true
  | .reset i => curr h = some i → ¬ Gone h i
  | .userStart i _ => curr h = some i → ¬ Gone h i
  | .userStop i _ => curr h = some i → ¬ Gone h i
  | .exec i _ _ => ¬ Gone h i
  | .getTime => CurrLive h
  | .writeout => CurrLive h
  | .closeFile i => ¬ Gone h i
  | .printf => CurrLive h ∧ curr h ≠ none
  | .finalize i => ¬ Gone h i

/-- All calls are allowed. -/
def Safe (h : List Op) : List Op → Prop
  | [] => True
  | o :: l => SafeOp h o ∧ Safe (o :: h) l

/-- A call which begins a new measurement of instance `i`. -/
def Begins (h : List Op) (i : Nat) : Op → Prop
  | .enable j => j = some i ∧ curr h ≠ some i
  | .enableFile j _ => j = some i ∧ curr h ≠ some i
  | .reset j => j = i ∧ curr h = some i
  | _ => False

/-- A call which does not disturb a measurement of instance `i`. -/
def Keeps (i : Nat) : Op → Prop
  | .enable j => j = some i
  | .enableFile j _ => j = some i
  | .reset j => j ≠ i
  | _ => True

/-- Time spent in the backend for an instance. -/
def backendTime (i : Nat) : List Op → Nat
  | [] => 0
  | .exec j t1 t2 :: l => (if j = i then t2 - t1 else 0) + backendTime i l
  | _ :: l => backendTime i l

/-- A call which starts or stops user time of an instance. -/
def User (i : Nat) : Op → Prop
  | .userStart j _ => j = i
  | .userStop j _ => j = i
  | _ => False

/-- An instance which has a file open. -/
def HasFile (i : Nat) : List Op → Prop
  | [] => False
  | .enableFile j _ :: h => (j = some i ∧ curr h ≠ some i) ∨ HasFile i h
  | .closeFile j :: h => j ≠ i ∧ HasFile i h
  | .finalize j :: h => j ≠ i ∧ HasFile i h
  | _ :: h => HasFile i h

/-- Files are opened only for instances without file. -/
def NoReopen (h : List Op) : List Op → Prop
  | [] => True
  | .enableFile (some i) ok :: l => (curr h ≠ some i → ¬ HasFile i h) ∧ NoReopen (.enableFile (some i) ok :: h) l
  | o :: l => NoReopen (o :: h) l

end Laik.Pf
