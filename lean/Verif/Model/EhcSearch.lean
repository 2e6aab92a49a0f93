import Verif.Model.SearchSpace
import Verif.Model.OrderedSet

/-
Model of src/search/search_algorithms/enforced_hill_climbing_search.cc.

Evaluators are arbitrary.  Logging and statistics are not modelled, except for the
computation of `d` in ehc(), which can overflow.  The loop in ehc() is not nested in step():
a step of the model is either the part of step() before the call of ehc() or one iteration of
the loop.
-/
namespace Verif.Search
open Verif.OpenList Verif.OrderedSet

/-- everything enforced hill climbing calls apart from the open list and the search space -/
structure HEnv (S σ : Type) where
  /-- notify_initial_state of all path-dependent evaluators -/
  notifyInitial : σ → S → σ
  /-- notify_state_transition of all path-dependent evaluators -/
  notifyTransition : σ → S → Nat → S → σ
  /-- the value of the evaluator `h` -/
  eval : σ → S → Option (Int × σ)
  /-- SearchProgress::check_progress -/
  progress : σ → σ
  /-- the preferred operators of the evaluators given for that, one after the other -/
  preferredOps : σ → S → List Nat × σ
  /-- dead_ends_are_reliable of the evaluator `h` -/
  reliable : Bool

/-- the options of enforced hill climbing: the bound, `use_preferred` (enforced_hill_climbing_search.cc:76-79)
and whether `preferred_usage` is PRUNE_BY_PREFERRED -/
structure HOptions where
  bound : Int
  usePreferred : Bool
  prune : Bool

/-- the members of EnforcedHillClimbingSearch that change during the search; `cur` and `curH`
are the state of current_eval_context and its value of `h`; `atStep`: step() is called next,
otherwise the condition of the loop in ehc() is tested next -/
structure Ehc (S σ : Type) where
  infos : S → NodeInfo S
  openList : OL (S × Nat)
  rng : Rng
  env : σ
  cur : S
  curH : Int
  startG : Int
  atStep : Bool

/-- the outcome of a search: the program exits in initialize() (with SEARCH_UNSOLVABLE or
with SEARCH_UNSOLVED_INCOMPLETE), or steps are taken -/
inductive HRes (S σ : Type) where
  | exit (unsolvable : Bool)
  | run (r : Res (Ehc S σ))

/-- enforced_hill_climbing_search.cc:20-50; evaluator 0 is the g-evaluator, evaluator 1 the
preferred operator evaluator; TieBreakingOpenListFactory has the arguments unsafe_pruning and
pref_only, in this order (tiebreaking_open_list.h:12-15) -/
def HOptions.cfg (opts : HOptions) : Cfg :=
  if !opts.usePreferred || opts.prune then .bestFirst false 0 else .tiebreaking true false [0, 1]

/-- the values of the g-evaluator (g_evaluator.cc:13-18) and of the preferred operator evaluator
(pref_evaluator.cc:16-25) in the context created in insert_successor_into_open_list -/
def edgeCtx (g : Int) (preferred : Bool) : Ctx := ⟨fun ev => if ev = 0 then g else if preferred then 0 else 1, preferred⟩

variable {S σ : Type} [DecidableEq S]

/-- enforced_hill_climbing_search.cc:120-132 for the operators `os`; the evaluators of the
open list never report unreliable dead ends -/
def Ehc.insertEdges (w : World S) (H : StdHeap (S × Nat)) (s : S) (g : Int) (preferred : Nat → Bool) : List Nat → OL (S × Nat) → Option (OL (S × Nat))
  | [], ol => some ol
  | o :: os, ol =>
    match plus g (w.adj o) with
    | none => none
    | some succG =>
      match ol.insert H (fun _ => true) (edgeCtx succG (preferred o)) (s, o) with
      | none => none
      | some ol => Ehc.insertEdges w H s g preferred os ol

/-- enforced_hill_climbing_search.cc:138-145 -/
def Ehc.preferred (E : HEnv S σ) (opts : HOptions) (env : σ) (s : S) : OSet Nat × σ :=
  if opts.usePreferred then ((E.preferredOps env s).1.foldl OSet.insert OSet.new, (E.preferredOps env s).2) else (OSet.new, env)

/-- enforced_hill_climbing_search.cc:147-166: the operators and whether they count as
preferred -/
def Ehc.operators (w : World S) (opts : HOptions) (preferred : OSet Nat) (s : S) : Option (List Nat × (Nat → Bool)) :=
  if opts.usePreferred && opts.prune then some (preferred.ordered, fun _ => true)
  else (w.ops s).map (fun ops => (ops, fun o => opts.usePreferred && preferred.contains o))

/-- enforced_hill_climbing_search.cc:134-170 -/
def Ehc.expand (w : World S) (E : HEnv S σ) (H : StdHeap (S × Nat)) (opts : HOptions) (s : S) (st : Ehc S σ) : Option (Ehc S σ) :=
  match (st.infos s).getG, Ehc.operators w opts (Ehc.preferred E opts st.env s).1 s with
  | some g, some (os, preferred) =>
    match Ehc.insertEdges w H s g preferred os st.openList, closeNode (st.infos s) with
    | some ol, some i => some { st with infos := upd st.infos s i, openList := ol, env := (Ehc.preferred E opts st.env s).2 }
    | _, _ => none
  | _, _ => none

/-- enforced_hill_climbing_search.cc:172-182 -/
def Ehc.start (w : World S) (E : HEnv S σ) (H : StdHeap (S × Nat)) (opts : HOptions) (st : Ehc S σ) : Option (Res (Ehc S σ)) :=
  match w.goal st.cur with
  | none => none
  | some true => (tracePath st.infos st.cur).map Res.solved
  | some false => (Ehc.expand w E H opts st.cur { st with env := E.progress st.env }).map (fun st => .inProgress { st with atStep := false })

/-- enforced_hill_climbing_search.cc:214-239: the new node `t` reached via `(p, o)` has the
value `h` -/
def Ehc.openState (w : World S) (E : HEnv S σ) (H : StdHeap (S × Nat)) (opts : HOptions) (p : S) (o : Nat) (t : S) (h : Int) (st : Ehc S σ) : Option (Res (Ehc S σ)) :=
  match openNewNode w st.infos p o t with
  | none => none
  | some i =>
    if h < st.curH then
      some (.inProgress { st with infos := upd st.infos t i, cur := t, curH := h, openList := st.openList.clear, startG := i.g, atStep := true })
    else (Ehc.expand w E H opts t { st with infos := upd st.infos t i }).map Res.inProgress

/-- enforced_hill_climbing_search.cc:204-241: the successor `t` of `p` via `o` -/
def Ehc.successor (w : World S) (E : HEnv S σ) (H : StdHeap (S × Nat)) (opts : HOptions) (p : S) (o : Nat) (t : S) (st : Ehc S σ) : Option (Res (Ehc S σ)) :=
  if (st.infos t).status = .new then
    match E.eval (E.notifyTransition st.env p o t) t with
    | none => none
    | some (h, env) =>
      if h = infty then some (.inProgress { st with infos := upd st.infos t (markDeadEnd (st.infos t)), env := env })
      else Ehc.openState w E H opts p o t h { st with env := env }
  else some (.inProgress st)

/-- enforced_hill_climbing_search.cc:186-203: the edge `(p, o)` has been removed from the open
list; get_successor_state demands that the operator is applicable -/
def Ehc.edge (w : World S) (E : HEnv S σ) (H : StdHeap (S × Nat)) (opts : HOptions) (p : S) (o : Nat) (st : Ehc S σ) : Option (Res (Ehc S σ)) :=
  match (st.infos p).getG.bind (fun g => plus (g - st.startG) (w.adj o)), plus (st.infos p).realG (w.cost o) with
  | some _, some rg =>
    if rg ≥ opts.bound then some (.inProgress st)
    else
      match w.ops p, w.succ p o with
      | some ops, some t => if o ∈ ops then Ehc.successor w E H opts p o t st else none
      | _, _ => none
  | _, _ => none

/-- enforced_hill_climbing_search.cc:184-246: an iteration of the loop in ehc() -/
def Ehc.iteration (w : World S) (E : HEnv S σ) (H : StdHeap (S × Nat)) (opts : HOptions) (st : Ehc S σ) : Option (Res (Ehc S σ)) :=
  if st.openList.empty then some .failed
  else
    match st.openList.removeMin H st.rng with
    | none => none
    | some (e, ol, rng) => Ehc.edge w E H opts e.1 e.2 { st with openList := ol, rng := rng }

/-- a step of the model -/
def Ehc.step (w : World S) (E : HEnv S σ) (H : StdHeap (S × Nat)) (opts : HOptions) (st : Ehc S σ) : Option (Res (Ehc S σ)) :=
  if st.atStep then Ehc.start w E H opts st else Ehc.iteration w E H opts st

/-- the state after initialize() if the initial state has the finite value `h` -/
def Ehc.initial (w : World S) (opts : HOptions) (rng : Rng) (env : σ) (h : Int) : Ehc S σ :=
  ⟨upd (fun _ => .fresh) w.init ⟨.opened, 0, none, none, 0⟩, create (S × Nat) opts.cfg, rng, env, w.init, h, 0, true⟩

/-- enforced_hill_climbing_search.cc:52-118 and search_algorithm.cc:80-93: initialization and
`n` steps -/
def Ehc.search (w : World S) (E : HEnv S σ) (H : StdHeap (S × Nat)) (opts : HOptions) (rng : Rng) (env : σ) (n : Nat) : Option (HRes S σ) :=
  match E.eval (E.notifyInitial env w.init) w.init with
  | none => none
  | some (h, env) =>
    if h = infty then some (.exit E.reliable)
    else (runFor (Ehc.step w E H opts) n (Ehc.initial w opts rng env h)).map .run

end Verif.Search
