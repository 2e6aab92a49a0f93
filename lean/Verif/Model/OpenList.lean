import Verif.Model.OpenListLeaf

/-
Model of open lists as used by the search algorithms, src/search/open_list.h and
src/search/open_lists/*.cc, including arbitrarily nested alternation lists.

`rel ev` tells whether `Evaluator::dead_ends_are_reliable()` holds for evaluator `ev`.
Simplifications: all lists draw from one stream of random numbers (as the stream is
arbitrary, this covers separately seeded generators); epsilon is the rational `p/q`.
-/
namespace Verif.OpenList

/-- the options with which an open list is created -/
inductive Cfg where
  | bestFirst (pref : Bool) (ev : Nat)
  | tiebreaking (pref unsafePruning : Bool) (evs : List Nat)
  | pareto (pref stateUniform : Bool) (evs : List Nat)
  | epsilonGreedy (pref : Bool) (ev p q : Nat)
  | typeBased (evs : List Nat)
  | alternation (boost : Int) (subs : List Cfg)

/-- an open list with its contents -/
inductive OL (E : Type) where
  | bestFirst (pref : Bool) (ev : Nat) (s : BF Int E)
  | tiebreaking (pref unsafePruning : Bool) (evs : List Nat) (s : BF (List Int) E)
  | pareto (pref stateUniform : Bool) (evs : List Nat) (s : Pareto E)
  | epsilonGreedy (pref : Bool) (ev p q : Nat) (s : Eps E)
  | typeBased (evs : List Nat) (s : TB E)
  | alternation (boost : Int) (prios : List Int) (subs : List (OL E))

mutual
/-- the create_*_open_list functions and the constructors; alternation_open_list.cc:42-52 -/
def create (E : Type) : Cfg → OL E
  | .bestFirst pref ev => .bestFirst pref ev .new
  | .tiebreaking pref uns evs => .tiebreaking pref uns evs .new
  | .pareto pref u evs => .pareto pref u evs .new
  | .epsilonGreedy pref ev p q => .epsilonGreedy pref ev p q .new
  | .typeBased evs => .typeBased evs .new
  | .alternation boost subs => .alternation boost (subs.map (fun _ => 0)) (createAll E subs)
def createAll (E : Type) : List Cfg → List (OL E)
  | [] => []
  | c :: cs => create E c :: createAll E cs
end

variable {E : Type}

/-- open_list.h:152-154; type-based and alternation lists use the default of the constructor -/
def OL.onlyPreferred : OL E → Bool
  | .bestFirst pref _ _ => pref
  | .tiebreaking pref _ _ _ => pref
  | .pareto pref _ _ _ => pref
  | .epsilonGreedy pref _ _ _ _ => pref
  | .typeBased _ _ => false
  | .alternation _ _ _ => false

/-- the loops of tiebreaking_open_list.cc:135-139, pareto_open_list.cc:215-219 and
type_based_open_list.cc:120-124 -/
def anyReliableInfinite (rel : Nat → Bool) (c : Ctx) (evs : List Nat) : Bool := evs.any (fun ev => c.isInfinite ev && rel ev)

/-- the loops of tiebreaking_open_list.cc:126-129, pareto_open_list.cc:206-209 and
type_based_open_list.cc:110-114 -/
def allInfinite (c : Ctx) (evs : List Nat) : Bool := evs.all (fun ev => c.isInfinite ev)

mutual
/-- is_reliable_dead_end: best_first_open_list.cc:93-97, tiebreaking_open_list.cc:133-141,
pareto_open_list.cc:213-221, epsilon_greedy_open_list.cc:116-120,
type_based_open_list.cc:118-127, alternation_open_list.cc:118-125 -/
def OL.isReliableDeadEnd (rel : Nat → Bool) (c : Ctx) : OL E → Bool
  | .bestFirst _ ev _ => c.isInfinite ev && rel ev
  | .tiebreaking _ _ evs _ => anyReliableInfinite rel c evs
  | .pareto _ _ evs _ => anyReliableInfinite rel c evs
  | .epsilonGreedy _ ev _ _ _ => c.isInfinite ev && rel ev
  | .typeBased evs _ => anyReliableInfinite rel c evs
  | .alternation _ _ subs => anyReliable rel c subs
def anyReliable (rel : Nat → Bool) (c : Ctx) : List (OL E) → Bool
  | [] => false
  | o :: os => if o.isReliableDeadEnd rel c then true else anyReliable rel c os
end

/-- tiebreaking_open_list.cc:122-124; `evaluators[0]` on an empty vector is excluded by the
constructor's caller (verify_list_not_empty) -/
def firstInfinite (c : Ctx) : List Nat → Bool
  | [] => false
  | ev :: _ => c.isInfinite ev

mutual
/-- is_dead_end: best_first_open_list.cc:87-91, tiebreaking_open_list.cc:114-131,
pareto_open_list.cc:200-211, epsilon_greedy_open_list.cc:110-114,
type_based_open_list.cc:104-116, alternation_open_list.cc:105-116 -/
def OL.isDeadEnd (rel : Nat → Bool) (c : Ctx) : OL E → Bool
  | .bestFirst _ ev _ => c.isInfinite ev
  | .tiebreaking _ uns evs _ => anyReliableInfinite rel c evs || (uns && firstInfinite c evs) || allInfinite c evs
  | .pareto _ _ evs _ => anyReliableInfinite rel c evs || allInfinite c evs
  | .epsilonGreedy _ ev _ _ _ => c.isInfinite ev
  | .typeBased evs _ => anyReliableInfinite rel c evs || allInfinite c evs
  | .alternation _ _ subs => anyReliable rel c subs || allDeadEnd rel c subs
def allDeadEnd (rel : Nat → Bool) (c : Ctx) : List (OL E) → Bool
  | [] => true
  | o :: os => if !o.isDeadEnd rel c then false else allDeadEnd rel c os
end

/-- do_insertion of the lists without sublists: best_first_open_list.cc:47-53,
tiebreaking_open_list.cc:63-74, pareto_open_list.cc:123-157,
epsilon_greedy_open_list.cc:75-81, type_based_open_list.cc:49-67 -/
def OL.insertLeaf (H : StdHeap E) (c : Ctx) (e : E) : OL E → Option (OL E)
  | .bestFirst pref ev s => (c.getValue ev).map (fun k => .bestFirst pref ev (s.insert k e))
  | .tiebreaking pref uns evs s => some (.tiebreaking pref uns evs (s.insert (c.key evs) e))
  | .pareto pref u evs s => some (.pareto pref u evs (s.insert (c.key evs) e))
  | .epsilonGreedy pref ev p q s => (c.getValue ev).map (fun k => .epsilonGreedy pref ev p q (s.insert H k e))
  | .typeBased evs s => (s.insert (c.key evs) e).map (fun s => .typeBased evs s)
  | .alternation _ _ _ => none

mutual
/-- open_list.h:142-149 with do_insertion; alternation_open_list.cc:54-59 -/
def OL.insert (H : StdHeap E) (rel : Nat → Bool) (c : Ctx) (e : E) : OL E → Option (OL E)
  | .alternation boost prios subs =>
    if anyReliable rel c subs || allDeadEnd rel c subs then some (.alternation boost prios subs)
    else (insertAll H rel c e subs).map (fun subs => .alternation boost prios subs)
  | .bestFirst pref ev s =>
    if pref && !c.preferred then some (.bestFirst pref ev s)
    else if OL.isDeadEnd rel c (.bestFirst pref ev s) then some (.bestFirst pref ev s) else OL.insertLeaf H c e (.bestFirst pref ev s)
  | .tiebreaking pref uns evs s =>
    if pref && !c.preferred then some (.tiebreaking pref uns evs s)
    else if OL.isDeadEnd rel c (.tiebreaking pref uns evs s) then some (.tiebreaking pref uns evs s) else OL.insertLeaf H c e (.tiebreaking pref uns evs s)
  | .pareto pref u evs s =>
    if pref && !c.preferred then some (.pareto pref u evs s)
    else if OL.isDeadEnd rel c (.pareto pref u evs s) then some (.pareto pref u evs s) else OL.insertLeaf H c e (.pareto pref u evs s)
  | .epsilonGreedy pref ev p q s =>
    if pref && !c.preferred then some (.epsilonGreedy pref ev p q s)
    else if OL.isDeadEnd rel c (.epsilonGreedy pref ev p q s) then some (.epsilonGreedy pref ev p q s) else OL.insertLeaf H c e (.epsilonGreedy pref ev p q s)
  | .typeBased evs s =>
    if OL.isDeadEnd rel c (.typeBased evs s) then some (.typeBased evs s) else OL.insertLeaf H c e (.typeBased evs s)
def insertAll (H : StdHeap E) (rel : Nat → Bool) (c : Ctx) (e : E) : List (OL E) → Option (List (OL E))
  | [] => some []
  | o :: os => (o.insert H rel c e).bind (fun o' => (insertAll H rel c e os).map (fun os' => o' :: os'))
end

mutual
/-- empty: see the leaf models; alternation_open_list.cc:77-83 -/
def OL.empty : OL E → Bool
  | .bestFirst _ _ s => s.empty
  | .tiebreaking _ _ _ s => s.empty
  | .pareto _ _ _ s => s.empty
  | .epsilonGreedy _ _ _ _ s => s.empty
  | .typeBased _ s => s.empty
  | .alternation _ _ subs => allEmpty subs
def allEmpty : List (OL E) → Bool
  | [] => true
  | o :: os => if !o.empty then false else allEmpty os
end

/-- alternation_open_list.cc:64-67: the body of the loop for sublist `i` with priority `pr` -/
def better (isEmpty : Bool) (i : Nat) (pr : Int) : Option (Nat × Int) → Option (Nat × Int)
  | none => if isEmpty then none else some (i, pr)
  | some (b, pb) => if !isEmpty && decide (pr < pb) then some (i, pr) else some (b, pb)

/-- alternation_open_list.cc:62-68: the loop over the sublists, `i` the current index and
`best` the best index so far with its priority -/
def bestLoop : Nat → Option (Nat × Int) → List (OL E) → List Int → Option (Nat × Int)
  | i, best, o :: os, pr :: prs =>
    bestLoop (i + 1) (better o.empty i pr best) os prs
  | _, best, _, _ => best

mutual
/-- remove_min: see the leaf models; alternation_open_list.cc:61-75 -/
def OL.removeMin (H : StdHeap E) (g : Rng) : OL E → Option (E × OL E × Rng)
  | .bestFirst pref ev s => s.removeMin.map (fun r => (r.1, .bestFirst pref ev r.2, g))
  | .tiebreaking pref uns evs s => s.removeMin.map (fun r => (r.1, .tiebreaking pref uns evs r.2, g))
  | .pareto pref u evs s => (s.removeMin u g).map (fun r => (r.1, .pareto pref u evs r.2.1, r.2.2))
  | .epsilonGreedy pref ev p q s => (s.removeMin H p q g).map (fun r => (r.1, .epsilonGreedy pref ev p q r.2.1, r.2.2))
  | .typeBased evs s => (s.removeMin g).map (fun r => (r.1, .typeBased evs r.2.1, r.2.2))
  | .alternation boost prios subs =>
    match bestLoop 0 none subs prios with
    | none => none
    | some (best, p) => (removeNth H g best subs).map (fun r => (r.1, .alternation boost (prios.set best (p + 1)) r.2.1, r.2.2))
/-- remove_min of the n-th sublist -/
def removeNth (H : StdHeap E) (g : Rng) : Nat → List (OL E) → Option (E × List (OL E) × Rng)
  | _, [] => none
  | 0, o :: os => (o.removeMin H g).map (fun r => (r.1, r.2.1 :: os, r.2.2))
  | n + 1, o :: os => (removeNth H g n os).map (fun r => (r.1, o :: r.2.1, r.2.2))
end

mutual
/-- clear: see the leaf models; alternation_open_list.cc:85-89 (the priorities are kept) -/
def OL.clear : OL E → OL E
  | .bestFirst pref ev s => .bestFirst pref ev s.clear
  | .tiebreaking pref uns evs s => .tiebreaking pref uns evs s.clear
  | .pareto pref u evs s => .pareto pref u evs s.clear
  | .epsilonGreedy pref ev p q s => .epsilonGreedy pref ev p q s.clear
  | .typeBased evs s => .typeBased evs s.clear
  | .alternation boost prios subs => .alternation boost prios (clearAll subs)
def clearAll : List (OL E) → List (OL E)
  | [] => []
  | o :: os => o.clear :: clearAll os
end

/-- alternation_open_list.cc:92-95 -/
def boostLoop (boost : Int) : List (OL E) → List Int → List Int
  | o :: os, p :: ps => (if o.onlyPreferred then p - boost else p) :: boostLoop boost os ps
  | _, ps => ps

/-- boost_preferred: open_list.h:137-139 (no effect), alternation_open_list.cc:91-96 -/
def OL.boostPreferred : OL E → OL E
  | .alternation boost prios subs => .alternation boost (boostLoop boost subs prios) subs
  | o => o

/-! ### histories -/

inductive Op (E : Type) where
  | insert (c : Ctx) (e : E)
  | removeMin
  | boostPreferred
  | clear

/-- one operation; the output is the entry removed, if any -/
def OL.step (H : StdHeap E) (rel : Nat → Bool) (o : OL E) (g : Rng) : Op E → Option (Option E × OL E × Rng)
  | .insert c e => (o.insert H rel c e).map (fun o' => (none, o', g))
  | .removeMin => (o.removeMin H g).map (fun r => (some r.1, r.2.1, r.2.2))
  | .boostPreferred => some (none, o.boostPreferred, g)
  | .clear => some (none, o.clear, g)

/-- a history of operations -/
def OL.run (H : StdHeap E) (rel : Nat → Bool) (o : OL E) (g : Rng) : List (Op E) → Option (List (Option E) × OL E × Rng)
  | [] => some ([], o, g)
  | op :: ops =>
    match o.step H rel g op with
    | none => none
    | some (out, o', g') =>
      match OL.run H rel o' g' ops with
      | none => none
      | some (outs, o'', g'') => some (out :: outs, o'', g'')

end Verif.OpenList
