/-
Specification for C07: one per-state object and any number of registries.
-/
namespace Verif.PerState

/-- What a program can do with one per-state object and any number of registries.
Registries are created at addresses, and an address can be used again after the registry
living there was destroyed. -/
inductive Op (W : Type)
  | newRegistry (a : Nat)
  | registerState (a : Nat)
  | destroyRegistry (a : Nat)
  | read (a id : Nat)
  | readConst (a id : Nat)
  | write (a id : Nat) (x : W)
  | destroyObject

/-- Abstract registry: its number of states, how many of them had been registered at the
last non-const access (only relevant for the abort of const array accesses), and the value
of every state. -/
structure SReg (E : Type) where
  size : Nat
  mat : Nat
  val : Nat → E

/-- a non-const access -/
def SReg.touch {E : Type} (sr : SReg E) : SReg E := { sr with mat := sr.size }

variable {E W : Type}

/-! ### Specification: a map from live registries to (number of states, value of each state) -/

/-- Abstract state: for every live registry its number of states and the value of every
state; whether the per-state object still exists. -/
structure Spec (E : Type) where
  reg : Nat → Option (SReg E)
  exists_ : Bool

def Spec.init : Spec E := ⟨fun _ => none, true⟩

/-- Operations allowed by the API: registries are created at free addresses, only live
registries and registered states are used, and the object is not used after its
destruction. -/
def Legal (ok : W → Prop) (s : Spec E) : Op W → Prop
  | .newRegistry a => s.reg a = none
  | .registerState a => s.reg a ≠ none
  | .destroyRegistry a => s.reg a ≠ none
  | .read a id => s.exists_ = true ∧ ∃ r, s.reg a = some r ∧ id < r.size
  | .readConst a id => s.exists_ = true ∧ ∃ r, s.reg a = some r ∧ id < r.size
  | .write a id x => s.exists_ = true ∧ (∃ r, s.reg a = some r ∧ id < r.size) ∧ ok x
  | .destroyObject => s.exists_ = true

/-- Effect of an operation on the abstract state. A new registry starts with the default
value `d` everywhere, whatever was stored for an earlier registry at the same address. -/
def Spec.next (d : E) (app : E → W → E) (s : Spec E) : Op W → Spec E
  | .newRegistry a => { s with reg := fun b => if b = a then some { size := 0, mat := 0, val := fun _ => d } else s.reg b }
  | .registerState a => { s with reg := fun b => if b = a then (s.reg a).map (fun r => { r with size := r.size + 1 }) else s.reg b }
  | .destroyRegistry a => { s with reg := fun b => if b = a then none else s.reg b }
  | .read a _ => { s with reg := fun b => if b = a then (s.reg a).map SReg.touch else s.reg b }
  | .readConst _ _ => s
  | .write a id x => { s with reg := fun b => if b = a then (s.reg a).map (fun r =>
      { size := r.size, mat := r.size, val := fun i => if i = id then app (r.val id) x else r.val i }) else s.reg b }
  | .destroyObject => { s with exists_ := false }

/-- The values a read may return.  The abort (`none`) is allowed only for arrays
(`missing = none`), and only for a const read of a state that was registered after the last
non-const access to its registry. -/
def Answers (missing : Option E) (s : Spec E) : Op W → List (Option E) → Prop
  | .read a id, out => ∃ r, s.reg a = some r ∧ out = [some (r.val id)]
  | .readConst a id, out => ∃ r, s.reg a = some r ∧
      (out = [some (r.val id)] ∨ (missing = none ∧ r.mat ≤ id ∧ out = [none]))
  | _, out => out = []

/-- A whole history with the answers it gives. -/
inductive Behaves (d : E) (app : E → W → E) (missing : Option E) : Spec E → List (Op W) → List (Option E) → Prop
  | nil (s : Spec E) : Behaves d app missing s [] []
  | cons {s : Spec E} {o : Op W} {os : List (Op W)} {out outs : List (Option E)} :
      Answers missing s o out → Behaves d app missing (s.next d app o) os outs → Behaves d app missing s (o :: os) (out ++ outs)

/-- Every operation of the history is allowed when it is executed. -/
def AllLegal (d : E) (ok : W → Prop) (app : E → W → E) : Spec E → List (Op W) → Prop
  | _, [] => True
  | s, o :: os => Legal ok s o ∧ AllLegal d ok app (s.next d app o) os


/-- What a history of operations on a `PerStateInformation` returns (reads in order). -/
def expected {α : Type} (d : α) : Spec α → List (Op α) → List α
  | _, [] => []
  | s, o :: os =>
    let rest := expected d (s.next d (fun _ x => x) o) os
    match o with
    | .read a id | .readConst a id =>
      match s.reg a with
      | some r => r.val id :: rest
      | none => rest
    | _ => rest

end Verif.PerState
