import Verif.Model.PlanFiles

/-
Specification of planner runs that write plan files and may be killed at any point.
-/
namespace Verif.PlanFiles

/-- a plan as it is saved: the names of its operators and its cost -/
structure SavedPlan where
  names : List (List Char)
  cost : Nat

/-- names contain no line breaks -/
def SavedPlan.Ok (p : SavedPlan) : Prop := ∀ n ∈ p.names, '\n' ∉ n

/-- the content of its file; `unit` tells whether the task has unit costs -/
def SavedPlan.file (unit : Bool) (p : SavedPlan) : List Char := planFile p.names p.cost unit

/-- the file gets a content -/
def Files.write (fs : Files) (n : Nat) (content : List Char) : Files := fun k => if k = n then some content else fs k

/-- A planner run that has saved `previous` plans saves the given plans, and is ended (normally or by a signal, at any point): `done` is the number of plans that have been written completely; of the next one a proper beginning may have been written. -/
inductive Run (unit : Bool) : Nat → List SavedPlan → Files → Files → Nat → Prop where
  | stop (previous plans fs) : Run unit previous plans fs fs 0
  | killed (previous p plans fs) (written rest : List Char) : rest ≠ [] → p.file unit = written ++ rest → Run unit previous (p :: plans) fs (fs.write (fileNumber previous) written) 0
  | saved (previous p plans fs fs' done) : Run unit (fileNumber previous) plans (fs.write (fileNumber previous) (p.file unit)) fs' done → Run unit previous (p :: plans) fs fs' (done + 1)

/-- plans of strictly decreasing cost, all below the bound (if there is one): what a planner run with this bound finds -/
def Improving : Option Nat → List SavedPlan → Prop
  | _, [] => True
  | b, p :: ps => p.Ok ∧ (∀ c, b = some c → p.cost < c) ∧ Improving (some p.cost) ps

/-- the states (of the plan manager and of the files) after any number of planner runs of a portfolio, each of them killed at any point -/
inductive Reach (unit : Bool) (bound : Option Nat) : Manager → Files → Prop where
  | start : Reach unit bound ⟨[], none⟩ (fun _ => none)
  | run (m fs plans fs' done m' fs'') : Reach unit bound m fs → Improving (nextBound m bound) plans → Run unit m.costs.length plans fs fs' done → processNewPlans m fs' = some (.ok m' fs'') → Reach unit bound m' fs''

end Verif.PlanFiles
