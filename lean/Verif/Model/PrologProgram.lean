import Verif.Spec.Program
import Verif.Model.BuildModel

/-
Model of the transformations of Datalog programs in src/translate/pddl_to_prolog.py, split_rules.py, greedy_join.py and graph.py (connected components).

Strings that begin with "?" are variables, other strings are objects; here these are the constructors of `Term`.  The generator of predicate names is a counter.  Output to the terminal is left out.
-/
namespace Verif.PrologProgram
open Verif.Datalog

/-- Names and orders: the predicates "=" and "@object", the names "p$0", "p$1", …, the new name of a variable with a number, and the sorting of arguments, atoms and groups of atoms by Python's order -/
structure Env (P V O : Type) where
  eq : P
  object : P
  name : Nat → P
  fresh : V → Nat → V
  sortTerms : List (Term V O) → List (Term V O)
  sortAtoms : List (SymAtom P V O) → List (SymAtom P V O)
  sortGroups : List (List (SymAtom P V O)) → List (List (SymAtom P V O))

/-- sorting does not change which elements there are (Python's `sorted` and `sort`), and numbered names are different (split_rules.py, pddl_to_prolog.py:15-18 `predicate_name_generator`) -/
structure Env.Ok {P V O : Type} (e : Env P V O) : Prop where
  terms : ∀ l, (e.sortTerms l).Perm l
  atoms : ∀ l, (e.sortAtoms l).Perm l
  groups : ∀ l, (e.sortGroups l).Perm l
  name : ∀ i j, e.name i = e.name j → i = j
  fresh : ∀ v w i j, e.fresh v i = e.fresh w j → i = j

/-- the names that the transformations introduce do not occur in the program: "@object", "p$0", …, "?x@0", … -/
structure Env.Fits {P V O : Type} (e : Env P V O) (facts : List (GAtom P O)) (rules : List (Clause P V O)) : Prop where
  factObject : ∀ a ∈ facts, a.pred ≠ e.object
  ruleObject : ∀ r ∈ rules, ∀ p ∈ r.preds, p ≠ e.object
  eqObject : e.eq ≠ e.object
  factName : ∀ a ∈ facts, ∀ i, a.pred ≠ e.name i
  ruleName : ∀ r ∈ rules, ∀ p ∈ r.preds, ∀ i, p ≠ e.name i
  eqName : ∀ i, e.eq ≠ e.name i
  objectName : ∀ i, e.object ≠ e.name i
  freshVars : ∀ r ∈ rules, ∀ v ∈ r.vars, ∀ i, e.fresh v i ∉ r.vars

section
variable {P V O : Type} [DecidableEq P] [DecidableEq V] [DecidableEq O]

/-- pddl_to_prolog.py:59-64: the variables of the effect that are in no condition, sorted -/
def freeVars (e : Env P V O) (r : Clause P V O) : List (Term V O) := e.sortTerms ((r.effect.vars.filter (fun v => !(r.conditions.any (fun c => c.vars.contains v)))).dedup.map .var)

/-- pddl_to_prolog.py:64-65 -/
def bindFree (e : Env P V O) (r : Clause P V O) : Clause P V O := ⟨r.effect, r.conditions ++ (freeVars e r).map (fun t => ⟨e.object, [t]⟩)⟩

/-- pddl_to_prolog.py:48-68 `remove_free_effect_variables`; the facts @object(o) are in some order -/
def removeFree (e : Env P V O) (facts : List (GAtom P O)) (rules : List (Clause P V O)) : List (GAtom P O) × List (Clause P V O) :=
  (if rules.any (fun r => !(freeVars e r).isEmpty) then facts ++ (objects facts).dedup.map (fun o => ⟨e.object, [o]⟩) else facts, rules.map (bindFree e))

/-- pddl_to_prolog.py:119-129 `_rename_duplicate_variables`: the new arguments and the equality conditions, which are kept as pairs of variables -/
def renameArgs (e : Env P V O) : List (Term V O) → List V → List (V × V) → List (Term V O) × List (V × V)
  | [], _, extra => ([], extra)
  | .const o :: ts, used, extra => (.const o :: (renameArgs e ts used extra).1, (renameArgs e ts used extra).2)
  | .var v :: ts, used, extra =>
    if v ∈ used then (.var (e.fresh v extra.length) :: (renameArgs e ts used (extra ++ [(v, e.fresh v extra.length)])).1, (renameArgs e ts used (extra ++ [(v, e.fresh v extra.length)])).2)
    else (.var v :: (renameArgs e ts (v :: used) extra).1, (renameArgs e ts (v :: used) extra).2)

/-- pddl_to_prolog.py:136-138: the conditions, one after another -/
def renameAll (e : Env P V O) : List (SymAtom P V O) → List (V × V) → List (SymAtom P V O) × List (V × V)
  | [], extra => ([], extra)
  | c :: cs, extra => (⟨c.pred, (renameArgs e c.args [] extra).1⟩ :: (renameAll e cs (renameArgs e c.args [] extra).2).1, (renameAll e cs (renameArgs e c.args [] extra).2).2)

/-- pddl_to_prolog.py:130-140 `rename_duplicate_variables` -/
def rename (e : Env P V O) (r : Clause P V O) : Clause P V O :=
  ⟨⟨r.effect.pred, (renameArgs e r.effect.args [] []).1⟩,
    (renameAll e r.conditions (renameArgs e r.effect.args [] []).2).1 ++ (renameAll e r.conditions (renameArgs e r.effect.args [] []).2).2.map (fun x => ⟨e.eq, [.var x.1, .var x.2]⟩)⟩

/-- the object of an argument -/
def constant? : Term V O → Option O
  | .const o => some o
  | .var _ => none

/-- pddl_to_prolog.py:91-92: the effect as a fact; `none` if the assertion fails -/
def ground (a : SymAtom P V O) : Option (GAtom P O) := (Mas.mapAll constant? a.args).map (fun args => ⟨a.pred, args⟩)

/-- pddl_to_prolog.py:82-97 `convert_trivial_rules` -/
def convertTrivial (facts : List (GAtom P O)) (rules : List (Clause P V O)) : Option (List (GAtom P O) × List (Clause P V O)) :=
  (Mas.mapAll (fun r => ground r.effect) (rules.filter (fun r => r.conditions.isEmpty))).map (fun new => (facts ++ new, rules.filter (fun r => !r.conditions.isEmpty)))

/-- pddl_to_prolog.py:29-37, 69-80 `normalize` -/
def normalize (e : Env P V O) (facts : List (GAtom P O)) (rules : List (Clause P V O)) : Option (List (GAtom P O) × List (Clause P V O)) :=
  convertTrivial (removeFree e facts rules).1 ((removeFree e facts rules).2.map (rename e))

/-- split_rules.py:12-16: the conditions with a variable, in their order -/
def varConditions (conds : List (SymAtom P V O)) (v : V) : List (SymAtom P V O) := conds.filter (fun c => c.vars.contains v)

/-- split_rules.py:19-21, graph.py:44-46 `connect`: the neighbours of a condition: the first condition with a variable is connected to the others -/
def neighbours (conds : List (SymAtom P V O)) (c : SymAtom P V O) : List (SymAtom P V O) :=
  c.vars.flatMap (fun v => match varConditions conds v with
    | [] => []
    | f :: others => if f = c then others else [f])

/-- graph.py:50-55 `dfs`, with a stack instead of recursion: nodes on the stack are visited if they remain.  The order in which neighbours are visited does not matter, because the result is sorted.  The first argument is the number of nodes that remain. -/
def visit (conds : List (SymAtom P V O)) : Nat → List (SymAtom P V O) → List (SymAtom P V O) → List (SymAtom P V O) → List (SymAtom P V O)
  | 0, _, _, comp => comp
  | n + 1, stack, remaining, comp =>
    match stack.filter (fun c => remaining.contains c) with
    | [] => comp
    | c :: stack' => visit conds n (neighbours conds c ++ stack') (remaining.erase c) (comp ++ [c])

/-- graph.py:47-61 `connected_components`; the first argument bounds the number of components -/
def components (e : Env P V O) (conds : List (SymAtom P V O)) : Nat → List (SymAtom P V O) → List (List (SymAtom P V O))
  | 0, _ => []
  | _ + 1, [] => []
  | n + 1, c :: remaining =>
    e.sortAtoms (visit conds (c :: remaining).length [c] (c :: remaining) []) ::
      components e conds n ((c :: remaining).filter (fun d => !(visit conds (c :: remaining).length [c] (c :: remaining) []).contains d))

/-- split_rules.py:10-22 `get_connected_conditions` -/
def connectedConditions (e : Env P V O) (conds : List (SymAtom P V O)) : List (List (SymAtom P V O)) := e.sortGroups (components e conds conds.dedup.length conds.dedup)

/-- number of different variables -/
def numVars (a : SymAtom P V O) : Nat := a.vars.dedup.length

/-- number of common variables -/
def numCommon (a b : SymAtom P V O) : Nat := (a.vars.dedup.filter (fun v => b.vars.contains v)).length

/-- greedy_join.py:57-65 `compute_join_cost`; the last number is the number of common variables, without the minus -/
def joinCost (a b : SymAtom P V O) : Nat × Nat × Nat := (min (numVars a) (numVars b) - numCommon a b, max (numVars a) (numVars b) - numCommon a b, numCommon a b)

/-- greedy_join.py:46: entry < min_cost -/
def cheaper (x y : Nat × Nat × Nat) : Bool := decide (x.1 < y.1) || (decide (x.1 = y.1) && (decide (x.2.1 < y.2.1) || (decide (x.2.1 = y.2.1) && decide (y.2.2 < x.2.2))))

/-- greedy_join.py:32-35, 44-45: the entries of the cost matrix with their indexes, in the order of the loops -/
def entries (joinees : List (SymAtom P V O)) : List ((Nat × Nat) × (Nat × Nat × Nat)) :=
  joinees.zipIdx.flatMap (fun x => (joinees.take x.2).zipIdx.map (fun y => ((x.2, y.2), joinCost x.1 y.1)))

/-- greedy_join.py:41-49 `find_min_pair`: the first entry with the least cost (the initial value of min_cost is taken to be larger than all costs) -/
def findMin : List ((Nat × Nat) × (Nat × Nat × Nat)) → Option ((Nat × Nat) × (Nat × Nat × Nat)) → Option ((Nat × Nat) × (Nat × Nat × Nat))
  | [], best => best
  | x :: xs, none => findMin xs (some x)
  | x :: xs, some b => findMin xs (some (if cheaper x.2 b.2 then x else b))

/-- greedy_join.py:96-97, with 6-24 `OccurrencesTracker`: the variables of the joinees that also occur in the other joinees or in the effect.  (The tracker counts occurrences in the effect and in all joinees.) -/
def effectVars (effect : SymAtom P V O) (rest : List (SymAtom P V O)) (l r : SymAtom P V O) : List (Term V O) :=
  ((l.args ++ r.args).filter (fun t => (effect :: rest).any (fun a => a.vars.any (fun v => t == .var v)))).dedup

/-- greedy_join.py:99-100: the arguments of a joinee that are kept; `other` is the other joinee -/
def retained (ev : List (Term V O)) (a other : SymAtom P V O) : List (Term V O) := (a.args.filter (fun t => ev.contains t || other.args.contains t)).dedup

/-- greedy_join.py:101: a joinee is projected if not all its arguments are kept -/
def needsProjection (ev : List (Term V O)) (a other : SymAtom P V O) : Bool := a.args.any (fun t => !(retained ev a other).contains t)

/-- greedy_join.py:102: the new joinee -/
def projected (e : Env P V O) (k : Nat) (ev : List (Term V O)) (a other : SymAtom P V O) : SymAtom P V O := if needsProjection ev a other then ⟨e.name k, e.sortTerms (retained ev a other)⟩ else a

/-- greedy_join.py:102: the new rule -/
def projection (e : Env P V O) (k : Nat) (ev : List (Term V O)) (a other : SymAtom P V O) : List (Datalog.Rule P V O) := if needsProjection ev a other then [⟨.project, projected e k ev a other, [a]⟩] else []

/-- the counter after a projection -/
def afterProjection (k : Nat) (ev : List (Term V O)) (a other : SymAtom P V O) : Nat := if needsProjection ev a other then k + 1 else k

/-- greedy_join.py:98-103: the rules of one iteration; `k` and `k1` are the numbers of the names for the projections, `target` is the effect of the join -/
def joinRules (e : Env P V O) (ev : List (Term V O)) (k k1 : Nat) (l r target : SymAtom P V O) : List (Datalog.Rule P V O) :=
  projection e k ev l r ++ projection e k1 ev r l ++ [⟨.join, target, [projected e k ev l r, projected e k1 ev r l]⟩]

/-- greedy_join.py:98-105, 74-76: one iteration, where `k`, `k1`, `k2` are the numbers of the names and `more` is the rest of the loop.  The effect of the last rule is replaced by the effect of the rule; here the last iteration uses it at once. -/
def joinStep (e : Env P V O) (effect : SymAtom P V O) (more : List (SymAtom P V O) → Nat → Option (List (Datalog.Rule P V O) × Nat)) (rest : List (SymAtom P V O)) (l r : SymAtom P V O) (ev : List (Term V O)) (k k1 k2 : Nat) : Option (List (Datalog.Rule P V O) × Nat) :=
  match rest with
  | [] => some (joinRules e ev k k1 l r effect, k2 + 1)
  | c :: cs => (more (c :: cs ++ [⟨e.name k2, e.sortTerms ev⟩]) (k2 + 1)).map (fun s => (joinRules e ev k k1 l r ⟨e.name k2, e.sortTerms ev⟩ ++ s.1, s.2))

/-- greedy_join.py:96-105: one iteration -/
def joinFrom (e : Env P V O) (effect : SymAtom P V O) (more : List (SymAtom P V O) → Nat → Option (List (Datalog.Rule P V O) × Nat)) (rest : List (SymAtom P V O)) (l r : SymAtom P V O) (ev : List (Term V O)) (k : Nat) : Option (List (Datalog.Rule P V O) × Nat) :=
  joinStep e effect more rest l r ev k (afterProjection k ev l r) (afterProjection (afterProjection k ev l r) ev r l)

/-- greedy_join.py:84-110 `greedy_join`: the loop.  The first argument of the loop bounds the number of iterations; the results are the rules and the counter for names. -/
def joinLoop (e : Env P V O) (effect : SymAtom P V O) : Nat → List (SymAtom P V O) → Nat → Option (List (Datalog.Rule P V O) × Nat)
  | 0, _, _ => none
  | n + 1, joinees, k =>
    match findMin (entries joinees) none with
    | none => none
    | some m =>
      match joinees[m.1.1]?, joinees[m.1.2]? with
      | some l, some r => joinFrom e effect (joinLoop e effect n) ((joinees.eraseIdx m.1.1).eraseIdx m.1.2) l r (effectVars effect ((joinees.eraseIdx m.1.1).eraseIdx m.1.2) l r) k
      | _, _ => none

/-- split_rules.py:64-68 `split_into_binary_rules` -/
def splitBinary (e : Env P V O) (r : Clause P V O) (k : Nat) : Option (List (Datalog.Rule P V O) × Nat) :=
  if r.conditions.length ≤ 1 then some ([⟨.project, r.effect, r.conditions⟩], k) else joinLoop e r.effect (r.conditions.length - 1) r.conditions k

/-- split_rules.py:24-29 `project_rule`, with the name of the given number -/
def projectRule (e : Env P V O) (effect : SymAtom P V O) (conds : List (SymAtom P V O)) (k : Nat) : Clause P V O :=
  ⟨⟨e.name k, e.sortTerms ((effect.args.filter (fun t => conds.any (fun c => c.vars.any (fun v => t == .var v)))).dedup)⟩, conds⟩

/-- split_rules.py:48-49: the projected rules -/
def projectRules (e : Env P V O) (effect : SymAtom P V O) : List (List (SymAtom P V O)) → Nat → List (Clause P V O)
  | [], _ => []
  | g :: gs, k => projectRule e effect g k :: projectRules e effect gs (k + 1)

/-- split_rules.py:50-52: the projected rules are split -/
def splitAll (e : Env P V O) : List (Clause P V O) → Nat → Option (List (Datalog.Rule P V O) × Nat)
  | [], k => some ([], k)
  | r :: rs, k =>
    match splitBinary e r k with
    | none => none
    | some s => (splitAll e rs s.2).map (fun t => (s.1 ++ t.1, t.2))

/-- split_rules.py:54-60: the combining rule -/
def combine (effect : SymAtom P V O) (conds : List (SymAtom P V O)) : Datalog.Rule P V O := ⟨if 2 ≤ conds.length then .product else .project, effect, conds⟩

/-- split_rules.py:31-62 `split_rule` -/
def splitRule (e : Env P V O) (r : Clause P V O) (k : Nat) : Option (List (Datalog.Rule P V O) × Nat) :=
  if (connectedConditions e (r.conditions.filter (fun c => !c.vars.isEmpty))).length = 1 ∧ r.conditions.filter (fun c => c.vars.isEmpty) = [] then splitBinary e r k
  else
    (splitAll e (projectRules e r.effect (connectedConditions e (r.conditions.filter (fun c => !c.vars.isEmpty))) k) (k + (connectedConditions e (r.conditions.filter (fun c => !c.vars.isEmpty))).length)).map
      (fun s => (s.1 ++ [combine r.effect ((projectRules e r.effect (connectedConditions e (r.conditions.filter (fun c => !c.vars.isEmpty))) k).map (·.effect) ++ r.conditions.filter (fun c => c.vars.isEmpty))], s.2))

/-- pddl_to_prolog.py:38-47 `split_rules` -/
def splitRules (e : Env P V O) : List (Clause P V O) → Nat → Option (List (Datalog.Rule P V O))
  | [], _ => some []
  | r :: rs, k =>
    match splitRule e r k with
    | none => none
    | some s => (splitRules e rs s.2).map (s.1 ++ ·)

/-- pddl_to_prolog.py:163-175 `translate`, after the facts and rules were added -/
def translate (e : Env P V O) (facts : List (GAtom P O)) (rules : List (Clause P V O)) : Option (List (GAtom P O) × List (Datalog.Rule P V O)) :=
  match normalize e facts rules with
  | none => none
  | some s => (splitRules e s.2 0).map (fun rs => (s.1, rs))

end
end Verif.PrologProgram
