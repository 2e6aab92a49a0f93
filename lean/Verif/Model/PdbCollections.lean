import Verif.Model.Pdb
import Verif.Model.MaxCliques

/-
Model of collections of pattern databases: src/search/pdbs/validation.cc, utils.cc (is_operator_relevant), zero_one_pdbs.cc,
zero_one_pdbs_heuristic.cc, pattern_cliques.cc, canonical_pdbs.cc, canonical_pdbs_heuristic.cc, dominance_pruning.cc,
pattern_collection_information.cc.

`none` and `.ub` are undefined behaviour; asserts are not modelled.  Log output is not modelled.
-/
namespace Verif.Pdb
open Verif.AdaptiveQueue

/-- std::unique followed by erase: of equal neighbours only the first one is kept (validation.cc:23-25) -/
def unique : List Int → List Int
  | [] => []
  | [a] => [a]
  | a :: b :: l => if a = b then unique (b :: l) else a :: unique (b :: l)

/-- validation.cc:15-42 validate_and_normalize_pattern: `none` is exit with SEARCH_CRITICAL_ERROR.  std::sort is determined by the order. -/
def normalize (numVars : Nat) (pattern : List Int) : Option (List Nat) :=
  let p := unique (pattern.insertionSort (· ≤ ·))
  match p.head?, p.getLast? with
  | some first, some last =>
    if first < 0 then none
    else if last ≥ numVars then none
    else some (p.map Int.toNat)
  | _, _ => some []

/-- std::binary_search; its precondition is that the range is sorted -/
def binarySearch (l : List Nat) (x : Nat) : Option Bool := if l.Pairwise (· ≤ ·) then some (decide (x ∈ l)) else none

/-- pdbs/utils.cc:46-54 is_operator_relevant -/
def isOperatorRelevant (pattern : List Nat) : List Effect → Option Bool
  | [] => some false
  | e :: es =>
    match binarySearch pattern e.fact.var with
    | none => none
    | some true => some true
    | some false => isOperatorRelevant pattern es

/-- zero_one_pdbs.cc:34-37: the loop over the operators; operators are paired with their ids -/
def zeroLoop (pattern : List Nat) : List (Operator × Nat) → List Nat → Option (List Nat)
  | [], costs => some costs
  | (o, i) :: l, costs =>
    match isOperatorRelevant pattern o.effects with
    | none => none
    | some true => if i < costs.length then zeroLoop pattern l (costs.set i 0) else none
    | some false => zeroLoop pattern l costs

/-- zero_one_pdbs.cc:28-40: the loop over the patterns -/
def zeroOneLoop (H : StdHeap Nat) (t : Task) : List (List Nat) → List Nat → Build (List Db)
  | [], _ => .ok []
  | P :: Ps, costs =>
    match computePdb H t P costs with
    | .unsupported => .unsupported
    | .tooLarge => .tooLarge
    | .ub => .ub
    | .ok db =>
      match zeroLoop db.proj.pattern t.ops.zipIdx costs with
      | none => .ub
      | some costs =>
        match zeroOneLoop H t Ps costs with
        | .unsupported => .unsupported
        | .tooLarge => .tooLarge
        | .ub => .ub
        | .ok dbs => .ok (db :: dbs)

/-- zero_one_pdbs.cc:19-41: the constructor of ZeroOnePDBs -/
def zeroOnePdbs (H : StdHeap Nat) (t : Task) (patterns : List (List Nat)) : Build (List Db) := zeroOneLoop H t patterns (t.ops.map (·.cost))

/-- zero_one_pdbs.cc:43-57 get_value, with the sum so far -/
def zeroOneValue (s : State) : List Db → Nat → Option Nat
  | [], h => some h
  | db :: dbs, h =>
    match db.value s with
    | none => none
    | some v =>
      if v = Dijkstra.inf then some Dijkstra.inf
      else if h + v < 2 ^ 31 then zeroOneValue s dbs (h + v)
      else none

/-- zero_one_pdbs_heuristic.cc:29-35, canonical_pdbs_heuristic.cc:69-77: `some none` is DEAD_END -/
def toHeuristic : Option Nat → Option (Option Nat)
  | none => none
  | some h => if h = Dijkstra.inf then some none else some (some h)

/-- zero_one_pdbs_heuristic.cc:29-35 compute_heuristic -/
def zeroOneHeuristic (dbs : List Db) (s : State) : Option (Option Nat) := toHeuristic (zeroOneValue s dbs 0)

/-- `are_additive[v1][v2]` for a square matrix with `n` rows -/
def additiveAt (n : Nat) (m : Nat → Nat → Bool) (v1 v2 : Nat) : Option Bool := if v1 < n ∧ v2 < n then some (m v1 v2) else none

/-- pattern_cliques.cc:12-23 are_patterns_additive: the nested loops as one loop over all pairs -/
def additiveLoop (n : Nat) (m : Nat → Nat → Bool) : List (Nat × Nat) → Option Bool
  | [] => some true
  | (v1, v2) :: l =>
    match additiveAt n m v1 v2 with
    | none => none
    | some false => some false
    | some true => additiveLoop n m l

/-- pattern_cliques.cc:12-23 are_patterns_additive -/
def patternsAdditive (n : Nat) (m : Nat → Nat → Bool) (P Q : List Nat) : Option Bool := additiveLoop n m (P.flatMap (fun v => Q.map (fun w => (v, w))))

/-- pattern_cliques.cc:29-37: the nested loops as one loop over all pairs of effect variables of operators -/
def additiveVarsLoop (n : Nat) : List (Nat × Nat) → (Nat → Nat → Bool) → Option (Nat → Nat → Bool)
  | [], m => some m
  | (v, w) :: l, m => if v < n ∧ w < n then additiveVarsLoop n l (fun a b => if a = v ∧ b = w then false else m a b) else none

/-- pattern_cliques.cc:25-39 compute_additive_vars -/
def additiveVars (t : Task) : Option (Nat → Nat → Bool) :=
  additiveVarsLoop t.vars.length (t.ops.flatMap (fun o => o.effects.flatMap (fun e1 => o.effects.map (fun e2 => (e1.fact.var, e2.fact.var))))) (fun _ _ => true)

/-- the pairs (i, j) with i < j < n in the order of the nested loops (pattern_cliques.cc:47-48) -/
def pairs (n : Nat) : List (Nat × Nat) := (List.range n).flatMap (fun i => (List.range' (i + 1) (n - (i + 1))).map (fun j => (i, j)))

/-- `cgraph[i].push_back(j)` -/
def pushEdge (g : List (List Nat)) (i j : Nat) : Option (List (List Nat)) :=
  match g[i]? with
  | none => none
  | some nb => some (g.set i (nb ++ [j]))

/-- pattern_cliques.cc:47-56: the nested loops -/
def graphLoop (add : List Nat → List Nat → Option Bool) (patterns : List (List Nat)) : List (Nat × Nat) → List (List Nat) → Option (List (List Nat))
  | [], g => some g
  | (i, j) :: l, g =>
    match patterns[i]?, patterns[j]? with
    | some P, some Q =>
      match add P Q with
      | none => none
      | some false => graphLoop add patterns l g
      | some true =>
        match (pushEdge g i j).bind (fun g => pushEdge g j i) with
        | none => none
        | some g => graphLoop add patterns l g
    | _, _ => none

/-- pattern_cliques.cc:41-62 compute_pattern_cliques; a recursion depth of one more than the number of patterns is enough for any graph -/
def patternCliques (t : Task) (patterns : List (List Nat)) : Option (List (List Nat)) :=
  match additiveVars t with
  | none => none
  | some m =>
    match graphLoop (patternsAdditive t.vars.length m) patterns (pairs patterns.length) (List.replicate patterns.length []) with
    | none => none
    | some g => MaxCliques.computeMaxCliques g (patterns.length + 1)

/-- canonical_pdbs.cc:28-34: the values of the pattern databases; `some none` if one of them is infinite -/
def hValues (s : State) : List Db → Option (Option (List Nat))
  | [] => some (some [])
  | db :: dbs =>
    match db.value s with
    | none => none
    | some v =>
      if v = Dijkstra.inf then some none
      else
        match hValues s dbs with
        | none => none
        | some none => some none
        | some (some vs) => some (some (v :: vs))

/-- canonical_pdbs.cc:36-39: the sum of a clique -/
def cliqueSum (vs : List Nat) : List Nat → Nat → Option Nat
  | [], h => some h
  | i :: is, h =>
    match vs[i]? with
    | none => none
    | some v => if h + v < 2 ^ 31 then cliqueSum vs is (h + v) else none

/-- canonical_pdbs.cc:35-41: the loop over the cliques -/
def cliqueMax (vs : List Nat) : List (List Nat) → Nat → Option Nat
  | [], h => some h
  | c :: cs, h =>
    match cliqueSum vs c 0 with
    | none => none
    | some v => cliqueMax vs cs (max h v)

/-- canonical_pdbs.cc:21-43 get_value -/
def canonicalValue (dbs : List Db) (cliques : List (List Nat)) (s : State) : Option Nat :=
  match hValues s dbs with
  | none => none
  | some none => some Dijkstra.inf
  | some (some vs) => cliqueMax vs cliques 0

/-- canonical_pdbs_heuristic.cc:69-77 compute_heuristic -/
def canonicalHeuristic (dbs : List Db) (cliques : List (List Nat)) (s : State) : Option (Option Nat) := toHeuristic (canonicalValue dbs cliques s)

/-- dominance_pruning.cc:62-65: the loop over the variables of a pattern; `none` in the range of `f` is -1 -/
def markVars (n id : Nat) : List Nat → (Nat → Option Nat) → Option (Nat → Option Nat)
  | [], f => some f
  | v :: vs, f => if v < n then markVars n id vs (Relax.upd f v (some id)) else none

/-- dominance_pruning.cc:61-66: the loop over the patterns of the current clique -/
def markClique (n : Nat) (patterns : List (List Nat)) : List Nat → (Nat → Option Nat) → Option (Nat → Option Nat)
  | [], f => some f
  | id :: ids, f =>
    match patterns[id]? with
    | none => none
    | some P =>
      match markVars n id P f with
      | none => none
      | some f => markClique n patterns ids f

/-- dominance_pruning.cc:87-92: the loop over the other variables of the pattern -/
def sameId (n : Nat) (f : Nat → Option Nat) (id : Nat) : List Nat → Option Bool
  | [] => some true
  | v :: vs => if v < n then if f v ≠ some id then some false else sameId n f id vs else none

/-- dominance_pruning.cc:75-93 is_pattern_dominated -/
def patternDominated (n : Nat) (f : Nat → Option Nat) : List Nat → Option Bool
  | [] => none
  | v :: vs =>
    if v < n then
      match f v with
      | none => some false
      | some id => sameId n f id vs
    else none

/-- dominance_pruning.cc:53-73 set_current_clique: dominated_patterns for the clique -/
def dominatedPatterns (n : Nat) (patterns : List (List Nat)) (clique : List Nat) : Option (List Bool) :=
  match markClique n patterns clique (fun _ => none) with
  | none => none
  | some f => mapAll (patternDominated n f) patterns

/-- dominance_pruning.cc:95-106 is_clique_dominated -/
def cliqueDominated (dom : List Bool) : List Nat → Option Bool
  | [] => some true
  | id :: ids =>
    match dom[id]? with
    | none => none
    | some false => some false
    | some true => cliqueDominated dom ids

/-- dominance_pruning.cc:130-133: the loop over c2, with the cliques that are still to be tested -/
def pruneInner (dom : List Bool) (c1 : Nat) : List (List Nat × Nat) → List Bool → Option (List Bool)
  | [], pruned => some pruned
  | (clique, c2) :: l, pruned =>
    match pruned[c2]? with
    | none => none
    | some b =>
      if c1 ≠ c2 ∧ b = false then
        match cliqueDominated dom clique with
        | none => none
        | some d => pruneInner dom c1 l (if d then pruned.set c2 true else pruned)
      else pruneInner dom c1 l pruned

/-- dominance_pruning.cc:127-148: the loop over c1; `expired` says for each iteration if the timer has expired -/
def pruneOuter (n : Nat) (patterns cliques : List (List Nat)) (expired : Nat → Bool) : List (List Nat × Nat) → List Bool → Option (List Bool)
  | [], pruned => some pruned
  | (clique, c1) :: l, pruned =>
    match pruned[c1]? with
    | none => none
    | some true => if expired c1 then some pruned else pruneOuter n patterns cliques expired l pruned
    | some false =>
      match dominatedPatterns n patterns clique with
      | none => none
      | some dom =>
        match pruneInner dom c1 cliques.zipIdx pruned with
        | none => none
        | some pruned => if expired c1 then some pruned else pruneOuter n patterns cliques expired l pruned

/-- dominance_pruning.cc:117-151 get_pruned_cliques -/
def prunedCliques (n : Nat) (patterns cliques : List (List Nat)) (expired : Nat → Bool) : Option (List Bool) :=
  pruneOuter n patterns cliques expired cliques.zipIdx (List.replicate cliques.length false)

/-- dominance_pruning.cc:172-183: the cliques that are not pruned -/
def remainingCliques : List (List Nat) → List Bool → Option (List (List Nat))
  | [], _ => some []
  | _ :: _, [] => none
  | c :: cs, b :: bs =>
    match remainingCliques cs bs with
    | none => none
    | some l => some (if b then l else c :: l)

/-- is_remaining_pattern (dominance_pruning.cc:169, 174-179) -/
def isRemaining (rem : List (List Nat)) (id : Nat) : Bool := rem.any (fun c => c.contains id)

/-- dominance_pruning.cc:189-198: the loop over the patterns from number `id` on; results are the remaining patterns, their databases and
old_to_new_pattern_id -/
def renumber {α : Type} (rem : List (List Nat)) : List (List Nat × α) → Nat → List (List Nat) → List α → (Nat → Option Nat) → List (List Nat) × List α × (Nat → Option Nat)
  | [], _, ps, ds, f => (ps, ds, f)
  | (P, d) :: l, id, ps, ds, f =>
    if isRemaining rem id then renumber rem l (id + 1) (ps ++ [P]) (ds ++ [d]) (Relax.upd f id (some ps.length))
    else renumber rem l (id + 1) ps ds f

/-- dominance_pruning.cc:154-222 prune_dominated_cliques.  Patterns and databases are vectors of the same length. -/
def pruneDominated {α : Type} (n : Nat) (patterns : List (List Nat)) (dbs : List α) (cliques : List (List Nat)) (expired : Nat → Bool) :
    Option (List (List Nat) × List α × List (List Nat)) :=
  if patterns.length ≠ dbs.length then none
  else
    match prunedCliques n patterns cliques expired with
    | none => none
    | some pruned =>
      match remainingCliques cliques pruned with
      | none => none
      | some rem =>
        match renumber rem (patterns.zip dbs) 0 [] [] (fun _ => none) with
        | (ps, ds, f) =>
          match mapAll (mapAll f) rem with
          | none => none
          | some cs => some (ps, ds, cs)

/-- pattern_collection_information.cc:58-75: create_pdbs_if_missing -/
def createPdbs (H : StdHeap Nat) (t : Task) : List (List Nat) → Build (List Db)
  | [] => .ok []
  | P :: Ps =>
    match computePdb H t P [] with
    | .unsupported => .unsupported
    | .tooLarge => .tooLarge
    | .ub => .ub
    | .ok db =>
      match createPdbs H t Ps with
      | .unsupported => .unsupported
      | .tooLarge => .tooLarge
      | .ub => .ub
      | .ok dbs => .ok (db :: dbs)

/-- canonical_pdbs_heuristic.cc:18-57 get_canonical_pdbs: the databases and the cliques; `prune` is `none` if the time limit for pruning is 0,
otherwise it says for each iteration of the pruning loop if the time limit has been reached -/
def canonicalPdbs (H : StdHeap Nat) (t : Task) (patterns : List (List Nat)) (prune : Option (Nat → Bool)) : Build (List Db × List (List Nat)) :=
  match createPdbs H t patterns with
  | .unsupported => .unsupported
  | .tooLarge => .tooLarge
  | .ub => .ub
  | .ok dbs =>
    match patternCliques t patterns with
    | none => .ub
    | some cliques =>
      match prune with
      | none => .ok (dbs, cliques)
      | some expired =>
        match pruneDominated t.vars.length patterns dbs cliques expired with
        | none => .ub
        | some (_, dbs, cliques) => .ok (dbs, cliques)

end Verif.Pdb
