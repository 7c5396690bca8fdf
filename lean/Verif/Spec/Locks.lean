import Verif.Model.Locks
/-!
# What locks are for
-/
namespace Flu.Spec

/-- Two goroutines are in the middle of using the same table, and one of them changes it. -/
def Race (w : LWorld) (t : MapTab) : Prop :=
  ∃ i j, i ≠ j ∧ (w.threads i).using = some (t, true) ∧ ∃ b, (w.threads j).using = some (t, b)

/-- Goroutine `i` cannot go on before `j` has given a lock back. -/
def WaitsFor (w : LWorld) (i j : Nat) : Prop := ∃ m rest, w.threads i = ⟨.lock m :: rest, false⟩ ∧ w.held m = some j

/-- One after another, `i` waits for `j`, through at least one wait. -/
inductive WaitChain (w : LWorld) : Nat → Nat → Prop where
  | one {i j : Nat} (h : WaitsFor w i j) : WaitChain w i j
  | more {i j k : Nat} (h : WaitsFor w i j) (hr : WaitChain w j k) : WaitChain w i k

/-- All goroutines have done everything. -/
def Quiet (w : LWorld) : Prop := (∀ i, (w.threads i).rest = []) ∧ ∀ m, w.held m = none

/-- `n` steps without a new goroutine. -/
inductive StepsIn : Nat → LWorld → LOutcome → Prop where
  | zero (w : LWorld) : StepsIn 0 w (.alive w)
  | succ {n : Nat} {w w1 : LWorld} {o : LOutcome} (hs : LkStep (fun _ => False) w (.alive w1)) (h : StepsIn n w1 o) : StepsIn (n + 1) w o
  | last {w : LWorld} {t : MapTab} (hs : LkStep (fun _ => False) w (.dead t)) : StepsIn 1 w (.dead t)
  | bad {w : LWorld} {m : Mutex} (hs : LkStep (fun _ => False) w (.badUnlock m)) : StepsIn 1 w (.badUnlock m)

end Flu.Spec
