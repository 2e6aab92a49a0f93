import Verif.Model.SearchSpace

/-
Model of src/search/search_algorithms/eager_search.cc.

Evaluators, pruning methods and the progress check are arbitrary: `Env` bundles functions on
an arbitrary state `σ` (caches, path-dependent information, random numbers, statistics).
Logging and statistics are not modelled.
-/
namespace Verif.Search
open Verif.OpenList

/-- everything eager search calls apart from the open list and the search space -/
structure Env (S σ : Type) where
  /-- notify_initial_state of all path-dependent evaluators -/
  notifyInitial : σ → S → σ
  /-- notify_state_transition of all path-dependent evaluators -/
  notifyTransition : σ → S → Nat → S → σ
  /-- the results of the evaluators in an EvaluationContext with state, g and preferredness -/
  eval : σ → S → Int → Bool → Option (Ctx × σ)
  /-- the results in the context created in get_next_node_to_expand -/
  reeval : σ → S → Int → Option (Ctx × σ)
  /-- collect_preferred_operators_for_node -/
  preferredOps : σ → S → Int → List Nat × σ
  /-- PruningMethod::prune_operators -/
  prune : σ → S → List Nat → List Nat × σ
  /-- SearchProgress::check_progress -/
  progress : σ → Ctx → Bool × σ
  /-- update_f_value_statistics -/
  fStatistics : σ → S → Int → σ
  /-- the lazy evaluator, if there is one -/
  lazyEvaluator : Option Nat
  /-- is_estimate_cached and get_cached_estimate of the lazy evaluator -/
  cachedEstimate : σ → S → Option Int

/-- the options of eager search -/
structure Options where
  reopen : Bool
  bound : Int

/-- the members of EagerSearch that change during the search -/
structure Eager (S σ : Type) where
  infos : S → NodeInfo S
  openList : OL S
  rng : Rng
  env : σ

variable {S σ : Type} [DecidableEq S]

/-- eager_search.cc:44-109 (the result of a search starts IN_PROGRESS) -/
def Eager.initialize (w : World S) (E : Env S σ) (H : StdHeap S) (rel : Nat → Bool) (cfg : Cfg) (rng : Rng) (env : σ) : Option (Eager S σ) :=
  match E.eval (E.notifyInitial env w.init) w.init 0 true with
  | none => none
  | some (c, env) =>
    if (create S cfg).isDeadEnd rel c then some ⟨fun _ => .fresh, create S cfg, rng, env⟩
    else
      match openInitial (NodeInfo.fresh (S := S)), (create S cfg).insert H rel c w.init with
      | some i, some ol => some ⟨upd (fun _ => .fresh) w.init i, ol, rng, (E.progress env c).2⟩
      | _, _ => none

/-- eager_search.cc:254-271: a successor state seen for the first time -/
def Eager.newState (w : World S) (E : Env S σ) (H : StdHeap S) (rel : Nat → Bool) (s : S) (o : Nat) (t : S) (pref : Bool) (st : Eager S σ) : Option (Eager S σ) :=
  match (st.infos s).getG.bind (fun g => plus g (w.adj o)) with
  | none => none
  | some succG =>
    match E.eval st.env t succG pref with
    | none => none
    | some (c, env) =>
      if st.openList.isDeadEnd rel c then some { st with infos := upd st.infos t (markDeadEnd (st.infos t)), env := env }
      else
        match openNewNode w st.infos s o t, st.openList.insert H rel c t with
        | some i, some ol =>
          some { st with infos := upd st.infos t i, openList := if (E.progress env c).1 then ol.boostPreferred else ol, env := (E.progress env c).2 }
        | _, _ => none

/-- eager_search.cc:275-279 and 289-292: the parent is updated and the state is inserted
again -/
def Eager.reinsert (E : Env S σ) (H : StdHeap S) (rel : Nat → Bool) (t : S) (pref : Bool) (st : Eager S σ) (i : Option (NodeInfo S)) : Option (Eager S σ) :=
  match i with
  | none => none
  | some i =>
    match i.getG with
    | none => none
    | some g =>
      match E.eval st.env t g pref with
      | none => none
      | some (c, env) =>
        match st.openList.insert H rel c t with
        | none => none
        | some ol => some { st with infos := upd st.infos t i, openList := ol, env := env }

/-- eager_search.cc:272-308: a successor state seen before which is not a dead end -/
def Eager.oldState (w : World S) (E : Env S σ) (H : StdHeap S) (rel : Nat → Bool) (opts : Options) (s : S) (o : Nat) (t : S) (pref : Bool)
    (st : Eager S σ) : Option (Eager S σ) :=
  match (st.infos t).getG, (st.infos s).getG.bind (fun g => plus g (w.adj o)) with
  | some gt, some g' =>
    if gt > g' then
      if (st.infos t).status = .opened then Eager.reinsert E H rel t pref st (updateOpenNodeParent w st.infos s o t)
      else if (st.infos t).status = .closed ∧ opts.reopen = true then
        Eager.reinsert E H rel t pref st (reopenClosedNode w st.infos s o t)
      else (updateClosedNodeParent w st.infos s o t).map (fun i => { st with infos := upd st.infos t i })
    else some st
  | _, _ => none

/-- eager_search.cc:234-308: the successor `t` of `s` via `o` -/
def Eager.successor (w : World S) (E : Env S σ) (H : StdHeap S) (rel : Nat → Bool) (opts : Options) (s : S) (o : Nat) (t : S) (pref : Bool)
    (st : Eager S σ) : Option (Eager S σ) :=
  if (st.infos t).status = .deadEnd then some st
  else if (st.infos t).status = .new then Eager.newState w E H rel s o t pref st
  else Eager.oldState w E H rel opts s o t pref st

/-- eager_search.cc:226-309: the loop over the applicable operators -/
def Eager.generate (w : World S) (E : Env S σ) (H : StdHeap S) (rel : Nat → Bool) (opts : Options) (s : S) (preferred : List Nat) :
    List Nat → Eager S σ → Option (Eager S σ)
  | [], st => some st
  | o :: os, st =>
    match plus (st.infos s).realG (w.cost o) with
    | none => none
    | some rg =>
      if rg ≥ opts.bound then Eager.generate w E H rel opts s preferred os st
      else
        match w.succ s o with
        | none => none
        | some t =>
          match Eager.successor w E H rel opts s o t (preferred.contains o) { st with env := E.notifyTransition st.env s o t } with
          | none => none
          | some st' => Eager.generate w E H rel opts s preferred os st'

/-- eager_search.cc:210-224 and the loop -/
def Eager.generateSuccessors (w : World S) (E : Env S σ) (H : StdHeap S) (rel : Nat → Bool) (opts : Options) (s : S) (st : Eager S σ) : Option (Eager S σ) :=
  match w.ops s, (st.infos s).getG with
  | some ops, some g =>
    Eager.generate w E H rel opts s (E.preferredOps (E.prune st.env s ops).2 s g).1 (E.prune st.env s ops).1
      { st with env := (E.preferredOps (E.prune st.env s ops).2 s g).2 }
  | _, _ => none

/-- eager_search.cc:178-181 and 199-208, search_algorithm.cc:95-104 -/
def Eager.closeAndExpand (w : World S) (E : Env S σ) (H : StdHeap S) (rel : Nat → Bool) (opts : Options) (s : S) (st : Eager S σ) : Option (Res (Eager S σ)) :=
  match closeNode (st.infos s), w.goal s with
  | some i, some true => (tracePath (upd st.infos s i) s).map Res.solved
  | some i, some false =>
    (Eager.generateSuccessors w E H rel opts s { st with infos := upd st.infos s i, env := E.fStatistics st.env s i.g }).map Res.inProgress
  | _, _ => none

/-- eager_search.cc:162-175: the lazy evaluator `ev` has the cached estimate `oldH` -/
def Eager.reevaluate (w : World S) (E : Env S σ) (H : StdHeap S) (rel : Nat → Bool) (opts : Options) (ev : Nat) (oldH g : Int) (s : S) (st : Eager S σ) : Option (Res (Eager S σ)) :=
  match E.reeval st.env s g with
  | none => none
  | some (c, env) =>
    if st.openList.isDeadEnd rel c then some (.inProgress { st with infos := upd st.infos s (markDeadEnd (st.infos s)), env := env })
    else if c.value ev ≠ oldH then (st.openList.insert H rel c s).map (fun ol => .inProgress { st with openList := ol, env := env })
    else Eager.closeAndExpand w E H rel opts s { st with env := env }

/-- eager_search.cc:131-181: the entry `s` has been removed from the open list -/
def Eager.popped (w : World S) (E : Env S σ) (H : StdHeap S) (rel : Nat → Bool) (opts : Options) (s : S) (st : Eager S σ) : Option (Res (Eager S σ)) :=
  if (st.infos s).status = .closed then some (.inProgress st)
  else
    match (st.infos s).getG with
    | none => none
    | some g =>
      match E.lazyEvaluator with
      | none => Eager.closeAndExpand w E H rel opts s st
      | some ev =>
        if (st.infos s).status = .deadEnd then some (.inProgress st)
        else
          match E.cachedEstimate st.env s with
          | none => Eager.closeAndExpand w E H rel opts s st
          | some oldH => Eager.reevaluate w E H rel opts ev oldH g s st

/-- eager_search.cc:117-184.  One iteration of the loop of get_next_node_to_expand is a step
of its own (iterations ending with `continue` report IN_PROGRESS). -/
def Eager.step (w : World S) (E : Env S σ) (H : StdHeap S) (rel : Nat → Bool) (opts : Options) (st : Eager S σ) : Option (Res (Eager S σ)) :=
  if st.openList.empty then some .failed
  else
    match st.openList.removeMin H st.rng with
    | none => none
    | some (s, ol, rng) => Eager.popped w E H rel opts s { st with openList := ol, rng := rng }

/-- search_algorithm.cc:80-93: initialization and `n` steps -/
def Eager.search (w : World S) (E : Env S σ) (H : StdHeap S) (rel : Nat → Bool) (opts : Options) (cfg : Cfg) (rng : Rng) (env : σ) (n : Nat) : Option (Res (Eager S σ)) :=
  match Eager.initialize w E H rel cfg rng env with
  | none => none
  | some st => runFor (Eager.step w E H rel opts) n st

end Verif.Search
