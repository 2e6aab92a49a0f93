/-
Specification of data that is associated with pairs of an object and a planning task.

Objects live at addresses; an address can be used again after the object that lived there was destroyed.
-/
namespace Verif.PerTask

/-- what a program can do with tasks (of type `T`) and per-task information (with entries of type `E`). `iter` is the order in which a hash set is iterated. -/
inductive Op (T E : Type) where
  /-- a task is created at an address -/
  | newTask (a : Nat) (content : T)
  /-- an object for per-task information is created at an address; the function creates entries -/
  | newInfo (b : Nat) (construct : T → E)
  /-- read `info[task]` -/
  | read (b a : Nat)
  /-- `info[task] = e` -/
  | write (b a : Nat) (e : E)
  | destroyTask (a : Nat) (iter : List Nat → List Nat)
  | destroyInfo (b : Nat) (iter : List Nat → List Nat)

/-- iterating over a set visits all elements once -/
def Op.Ok {T E : Type} : Op T E → Prop
  | .destroyTask _ iter => ∀ l, (iter l).Perm l
  | .destroyInfo _ iter => ∀ l, (iter l).Perm l
  | _ => True

/-- what the program sees: an entry, and whether it was constructed now -/
inductive Out (E : Type) where
  | done
  | entry (e : E) (constructed : Bool)
deriving DecidableEq

/-- `f` with another value at `a` -/
def upd {α : Type} (f : Nat → α) (a : Nat) (x : α) : Nat → α := fun y => if y = a then x else f y

/-- the living tasks, the living objects for information, and the entries -/
structure Abs (T E : Type) where
  tasks : Nat → Option T
  infos : Nat → Option (T → E)
  vals : Nat → Nat → Option E

def Abs.empty {T E : Type} : Abs T E := ⟨fun _ => none, fun _ => none, fun _ _ => none⟩

/-- The meaning of the operations. A new task and a new object start without entries; an entry is created by the first access. Without result if the program uses an object that does not live, or creates one at an address that is in use. -/
def Abs.step {T E : Type} (A : Abs T E) : Op T E → Option (Out E × Abs T E)
  | .newTask a c => if (A.tasks a).isSome then none else some (.done, { A with tasks := upd A.tasks a (some c), vals := fun b => upd (A.vals b) a none })
  | .newInfo b f => if (A.infos b).isSome then none else some (.done, { A with infos := upd A.infos b (some f), vals := upd A.vals b (fun _ => none) })
  | .read b a =>
    match A.infos b, A.tasks a with
    | some f, some c =>
      match A.vals b a with
      | some e => some (.entry e false, A)
      | none => some (.entry (f c) true, { A with vals := upd A.vals b (upd (A.vals b) a (some (f c))) })
    | _, _ => none
  | .write b a e => if (A.infos b).isSome ∧ (A.tasks a).isSome then some (.done, { A with vals := upd A.vals b (upd (A.vals b) a (some e)) }) else none
  | .destroyTask a _ => if (A.tasks a).isSome then some (.done, { A with tasks := upd A.tasks a none }) else none
  | .destroyInfo b _ => if (A.infos b).isSome then some (.done, { A with infos := upd A.infos b none }) else none

/-- the results of a history -/
def Abs.run {T E : Type} (A : Abs T E) : List (Op T E) → Option (List (Out E) × Abs T E)
  | [] => some ([], A)
  | o :: os =>
    match A.step o with
    | none => none
    | some (r, A') => (A'.run os).map (fun q => (r :: q.1, q.2))

end Verif.PerTask
