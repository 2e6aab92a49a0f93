import Verif.Spec.PerTask

/-
Model of subscriptions and per-task information: src/search/algorithms/subscriber.h and src/search/per_task_information.h.

Addresses are numbers; `none` as a result stands for a failed assertion or an access to memory of an object that does not live. Tasks and objects for information have separate address spaces.
Simplifications: hash sets are lists, the order in which they are iterated is a parameter of the destructors; the function that constructs entries has no side effects; the only subscribers are objects for per-task information
(the one for per-state information is modelled in Model/PerState.lean).
-/
namespace Verif.PerTask

/-- src/search/algorithms/subscriber.h:65-76 (`SubscriberService<AbstractTask>`): the task and its subscribers -/
structure TaskObj (T : Type) where
  content : T
  subscribers : List Nat

/-- src/search/algorithms/subscriber.h:46-50 (`Subscriber<AbstractTask>`) and src/search/per_task_information.h:21-34 -/
structure InfoObj (T E : Type) where
  construct : T → E
  entries : Nat → Option E
  services : List Nat

/-- all objects that live -/
structure Heap (T E : Type) where
  tasks : Nat → Option (TaskObj T)
  infos : Nat → Option (InfoObj T E)

def Heap.empty {T E : Type} : Heap T E := ⟨fun _ => none, fun _ => none⟩

variable {T E : Type}

/-- src/search/algorithms/subscriber.h:90-95 (`SubscriberService::subscribe`) -/
def subscribe (a b : Nat) (H : Heap T E) : Option (Heap T E) :=
  match H.tasks a, H.infos b with
  | some t, some i =>
    if b ∈ t.subscribers then none
    else if a ∈ i.services then none
    else some ⟨upd H.tasks a (some { t with subscribers := b :: t.subscribers }), upd H.infos b (some { i with services := a :: i.services })⟩
  | _, _ => none

/-- src/search/algorithms/subscriber.h:97-102 (`SubscriberService::unsubscribe`) -/
def unsubscribe (a b : Nat) (H : Heap T E) : Option (Heap T E) :=
  match H.tasks a, H.infos b with
  | some t, some i =>
    if b ∉ t.subscribers then none
    else if a ∉ i.services then none
    else some ⟨upd H.tasks a (some { t with subscribers := t.subscribers.erase b }), upd H.infos b (some { i with services := i.services.erase a })⟩
  | _, _ => none

/-- src/search/per_task_information.h:51-59 (`PerTaskInformation::operator[]`): the entry, and whether it was constructed -/
def access (b a : Nat) (H : Heap T E) : Option ((E × Bool) × Heap T E) :=
  match H.infos b with
  | none => none
  | some i =>
    match i.entries a with
    | some e => some ((e, false), H)
    | none =>
      match H.tasks a with
      | none => none
      | some t => (subscribe a b { H with infos := upd H.infos b (some { i with entries := upd i.entries a (some (i.construct t.content)) }) }).map (fun H' => ((i.construct t.content, true), H'))

/-- assignment to the result of `operator[]` -/
def assign (b a : Nat) (e : E) (H : Heap T E) : Option (Heap T E) :=
  match access b a H with
  | none => none
  | some (_, H') => (H'.infos b).map (fun i => { H' with infos := upd H'.infos b (some { i with entries := upd i.entries a (some e) }) })

/-- src/search/per_task_information.h:61-64 (`PerTaskInformation::notify_service_destroyed`) -/
def notify (a b : Nat) (H : Heap T E) : Option (Heap T E) := (H.infos b).map (fun i => { H with infos := upd H.infos b (some { i with entries := upd i.entries a none }) })

/-- src/search/algorithms/subscriber.h:78-88 (`~SubscriberService`), the loop over the copy of the subscribers -/
def notifyAll (a : Nat) : List Nat → Heap T E → Option (Heap T E)
  | [], H => some H
  | b :: bs, H =>
    match notify a b H with
    | none => none
    | some H1 =>
      match unsubscribe a b H1 with
      | none => none
      | some H2 => notifyAll a bs H2

/-- src/search/algorithms/subscriber.h:52-62 (`~Subscriber`), the loop over the copy of the services -/
def unsubscribeAll (b : Nat) : List Nat → Heap T E → Option (Heap T E)
  | [], H => some H
  | a :: as, H =>
    match unsubscribe a b H with
    | none => none
    | some H1 => unsubscribeAll b as H1

/-- src/search/algorithms/subscriber.h:78-88 (`~SubscriberService`) -/
def destroyTask (a : Nat) (iter : List Nat → List Nat) (H : Heap T E) : Option (Heap T E) :=
  match H.tasks a with
  | none => none
  | some t => (notifyAll a (iter t.subscribers) H).map (fun H' => { H' with tasks := upd H'.tasks a none })

/-- src/search/algorithms/subscriber.h:52-62 (`~Subscriber`) -/
def destroyInfo (b : Nat) (iter : List Nat → List Nat) (H : Heap T E) : Option (Heap T E) :=
  match H.infos b with
  | none => none
  | some i => (unsubscribeAll b (iter i.services) H).map (fun H' => { H' with infos := upd H'.infos b none })

/-- the operations of a program; constructors start without subscribers, services and entries (src/search/per_task_information.h:41-49) -/
def step (H : Heap T E) : Op T E → Option (Out E × Heap T E)
  | .newTask a c => if (H.tasks a).isSome then none else some (.done, { H with tasks := upd H.tasks a (some ⟨c, []⟩) })
  | .newInfo b f => if (H.infos b).isSome then none else some (.done, { H with infos := upd H.infos b (some ⟨f, fun _ => none, []⟩) })
  | .read b a => (access b a H).map (fun r => (.entry r.1.1 r.1.2, r.2))
  | .write b a e => (assign b a e H).map (fun H' => (.done, H'))
  | .destroyTask a iter => (destroyTask a iter H).map (fun H' => (.done, H'))
  | .destroyInfo b iter => (destroyInfo b iter H).map (fun H' => (.done, H'))

/-- the results of a history -/
def run (H : Heap T E) : List (Op T E) → Option (List (Out E) × Heap T E)
  | [] => some ([], H)
  | o :: os =>
    match step H o with
    | none => none
    | some (r, H') => (run H' os).map (fun q => (r :: q.1, q.2))

end Verif.PerTask
