import Verif.Model.SearchSpace
import Verif.Model.OrderedSet

/-
Model of src/search/search_algorithms/lazy_search.cc.

Evaluators and the progress check are arbitrary, as in Model/EagerSearch.lean.  Logging and
statistics are not modelled.
-/
namespace Verif.Search
open Verif.OpenList Verif.OrderedSet

/-- everything lazy search calls apart from the open list and the search space -/
structure LEnv (S σ : Type) where
  /-- notify_initial_state of all path-dependent evaluators -/
  notifyInitial : σ → S → σ
  /-- notify_state_transition of all path-dependent evaluators -/
  notifyTransition : σ → S → Nat → S → σ
  /-- the results of the evaluators in current_eval_context -/
  eval : σ → S → Int → Option (Ctx × σ)
  /-- SearchProgress::check_progress -/
  progress : σ → Ctx → Bool × σ
  /-- the preferred operators of the evaluators given for that, one after the other -/
  preferredOps : σ → S → Int → List Nat × σ
  /-- RandomNumberGenerator::shuffle -/
  shuffle : σ → List Nat → List Nat × σ
  /-- the results of the evaluators in the context created in generate_successors: for the
  expanded state, with g-value and preferredness of the successor -/
  evalEdge : σ → S → Int → Bool → Option (Ctx × σ)

/-- the options of lazy search -/
structure LOptions where
  reopen : Bool
  bound : Int
  randomize : Bool
  preferredFirst : Bool

/-- lazy_search.h:36-40: current_state, current_predecessor_id and current_operator_id (`none`
for no_state and no_operator), current_g, current_real_g -/
structure Cur (S : Type) where
  state : S
  pred : Option (S × Nat)
  g : Int
  realG : Int

/-- the members of LazySearch that change during the search -/
structure Lazy (S σ : Type) where
  infos : S → NodeInfo S
  openList : OL (S × Nat)
  rng : Rng
  env : σ
  cur : Cur S

variable {S σ : Type} [DecidableEq S]

/-- lazy_search.cc:35-39 and 47-69 -/
def Lazy.initialize (w : World S) (E : LEnv S σ) (cfg : Cfg) (rng : Rng) (env : σ) : Lazy S σ :=
  ⟨fun _ => .fresh, create (S × Nat) cfg, rng, E.notifyInitial env w.init, ⟨w.init, none, 0, 0⟩⟩

/-- rng->shuffle if `randomize` -/
def shuffleIf (E : LEnv S σ) (randomize : Bool) (env : σ) (l : List Nat) : List Nat × σ :=
  if randomize then E.shuffle env l else (l, env)

/-- lazy_search.cc:97-106: the ordered set of preferred operators -/
def Lazy.preferred (E : LEnv S σ) (opts : LOptions) (s : S) (g : Int) (env : σ) : OSet Nat × σ :=
  let r := E.preferredOps env s g
  let set := r.1.foldl OSet.insert OSet.new
  let r' := shuffleIf E opts.randomize r.2 set.ordered
  ({ set with ordered := r'.1 }, r'.2)

/-- lazy_search.cc:71-93 for the applicable operators `ops` -/
def Lazy.successorOps (E : LEnv S σ) (opts : LOptions) (preferred : OSet Nat) (ops : List Nat) (env : σ) : List Nat × σ :=
  let r := shuffleIf E opts.randomize env ops
  if opts.preferredFirst then ((r.1.foldl OSet.insert (preferred.ordered.foldl OSet.insert OSet.new)).popAsVector.2, r.2) else r

/-- lazy_search.cc:113-125: the loop over the operators; `s` is the current state -/
def Lazy.insertEdges (w : World S) (E : LEnv S σ) (H : StdHeap (S × Nat)) (rel : Nat → Bool) (bound : Int) (s : S) (g realG : Int) (preferred : OSet Nat) :
    List Nat → OL (S × Nat) → σ → Option (OL (S × Nat) × σ)
  | [], ol, env => some (ol, env)
  | o :: os, ol, env =>
    match plus g (w.adj o), plus realG (w.cost o) with
    | some newG, some newRealG =>
      if newRealG < bound then
        match E.evalEdge env s newG (preferred.contains o) with
        | none => none
        | some (c, env) =>
          match ol.insert H rel c (s, o) with
          | none => none
          | some ol => Lazy.insertEdges w E H rel bound s g realG preferred os ol env
      else Lazy.insertEdges w E H rel bound s g realG preferred os ol env
    | _, _ => none

/-- lazy_search.cc:96-126 -/
def Lazy.generateSuccessors (w : World S) (E : LEnv S σ) (H : StdHeap (S × Nat)) (rel : Nat → Bool) (opts : LOptions) (st : Lazy S σ) : Option (Lazy S σ) :=
  match w.ops st.cur.state with
  | none => none
  | some ops =>
    let p := Lazy.preferred E opts st.cur.state st.cur.g st.env
    let r := Lazy.successorOps E opts p.1 ops p.2
    (Lazy.insertEdges w E H rel opts.bound st.cur.state st.cur.g st.cur.realG p.1 r.1 st.openList r.2).map (fun q => { st with openList := q.1, env := q.2 })

/-- lazy_search.cc:196-218: the information of the node of the current state when it is
opened -/
def Lazy.openNode (w : World S) (infos : S → NodeInfo S) (cur : Cur S) (reopen : Bool) : Option (NodeInfo S) :=
  match cur.pred with
  | none => openInitial (infos cur.state)
  | some (p, o) => if reopen then reopenClosedNode w infos p o cur.state else openNewNode w infos p o cur.state

/-- lazy_search.cc:196-198 and 220-226: progress; the context has been evaluated as `c` -/
def Lazy.reward (E : LEnv S σ) (c : Ctx) (st : Lazy S σ) : Lazy S σ :=
  let env := if st.cur.pred.isNone then (E.progress st.env c).2 else st.env
  { st with env := (E.progress env c).2, openList := if (E.progress env c).1 then st.openList.boostPreferred else st.openList }

/-- lazy_search.cc:219-229: the node of the current state gets information `i`, is closed and
expanded -/
def Lazy.expand (w : World S) (E : LEnv S σ) (H : StdHeap (S × Nat)) (rel : Nat → Bool) (opts : LOptions) (c : Ctx) (i : NodeInfo S) (st : Lazy S σ) :
    Option (Res (Lazy S σ)) :=
  match closeNode i, w.goal st.cur.state with
  | some i, some true => (tracePath (upd st.infos st.cur.state i) st.cur.state).map Res.solved
  | some i, some false =>
    (Lazy.generateSuccessors w E H rel opts (Lazy.reward E c { st with infos := upd st.infos st.cur.state i })).map Res.inProgress
  | _, _ => none

/-- lazy_search.cc:183-192 -/
def Lazy.notify (E : LEnv S σ) (st : Lazy S σ) : σ :=
  match st.cur.pred with
  | none => st.env
  | some (p, o) => E.notifyTransition st.env p o st.cur.state

/-- lazy_search.cc:182-232: the current state is new or reopened -/
def Lazy.evaluate (w : World S) (E : LEnv S σ) (H : StdHeap (S × Nat)) (rel : Nat → Bool) (opts : LOptions) (reopen : Bool) (st : Lazy S σ) :
    Option (Res (Lazy S σ)) :=
  match E.eval (Lazy.notify E st) st.cur.state st.cur.g with
  | none => none
  | some (c, env) =>
    if st.openList.isDeadEnd rel c then some (.inProgress { st with infos := upd st.infos st.cur.state (markDeadEnd (st.infos st.cur.state)), env := env })
    else
      match Lazy.openNode w st.infos st.cur reopen with
      | none => none
      | some i => Lazy.expand w E H rel opts c i { st with env := env }

/-- lazy_search.cc:175-237: a step up to the call of fetch_next_state -/
def Lazy.process (w : World S) (E : LEnv S σ) (H : StdHeap (S × Nat)) (rel : Nat → Bool) (opts : LOptions) (st : Lazy S σ) : Option (Res (Lazy S σ)) :=
  if (st.infos st.cur.state).status = .new then Lazy.evaluate w E H rel opts false st
  else if opts.reopen = true ∧ (st.infos st.cur.state).status ≠ .deadEnd then
    match (st.infos st.cur.state).getG with
    | none => none
    | some g => if st.cur.g < g then Lazy.evaluate w E H rel opts true st else some (.inProgress st)
  else some (.inProgress st)

/-- lazy_search.cc:137-162: the edge `(p, o)` has been removed from the open list -/
def Lazy.edge (w : World S) (p : S) (o : Nat) (st : Lazy S σ) : Option (Res (Lazy S σ)) :=
  match w.ops p with
  | none => none
  | some ops =>
    if o ∈ ops then
      match w.succ p o, (st.infos p).getG.bind (fun g => plus g (w.adj o)), plus (st.infos p).realG (w.cost o) with
      | some t, some g, some rg => some (.inProgress { st with cur := ⟨t, some (p, o), g, rg⟩ })
      | _, _, _ => none
    else none

/-- lazy_search.cc:128-164 -/
def Lazy.fetch (w : World S) (H : StdHeap (S × Nat)) (st : Lazy S σ) : Option (Res (Lazy S σ)) :=
  if st.openList.empty then some .failed
  else
    match st.openList.removeMin H st.rng with
    | none => none
    | some (e, ol, rng) => Lazy.edge w e.1 e.2 { st with openList := ol, rng := rng }

/-- lazy_search.cc:166-237 -/
def Lazy.step (w : World S) (E : LEnv S σ) (H : StdHeap (S × Nat)) (rel : Nat → Bool) (opts : LOptions) (st : Lazy S σ) : Option (Res (Lazy S σ)) :=
  match Lazy.process w E H rel opts st with
  | none => none
  | some (.inProgress st) => Lazy.fetch w H st
  | some r => some r

/-- search_algorithm.cc:80-93: initialization and `n` steps -/
def Lazy.search (w : World S) (E : LEnv S σ) (H : StdHeap (S × Nat)) (rel : Nat → Bool) (opts : LOptions) (cfg : Cfg) (rng : Rng) (env : σ) (n : Nat) : Option (Res (Lazy S σ)) :=
  runFor (Lazy.step w E H rel opts) n (Lazy.initialize w E cfg rng env)

end Verif.Search
