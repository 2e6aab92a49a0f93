import Verif.Spec.Strips
import Verif.Model.Simplify
import Mathlib.Data.Char

/-
Model of src/translate/main.py: a grounded task is translated to a task with finite-domain variables, given the groups of atoms that become variables.

Dictionaries of Python are lists in the order in which keys were inserted.
-/
namespace Verif.StripsToSas
open Verif.SasFile
open Verif.Strips
open Verif.Simplify (lookup mkOperator)

/-- an exception, None, or a result -/
inductive Py (β : Type) where
  | error
  | none
  | ok (b : β)

/-- the loop `for x in xs: result.extend(f(x))`, where nothing is done if f(x) is None -/
def gather {β γ : Type} (f : β → Py (List γ)) : List β → Option (List γ)
  | [] => some []
  | x :: xs =>
    match f x with
    | .error => none
    | .none => gather f xs
    | .ok l => match gather f xs with | none => none | some r => some (l ++ r)

section
variable {α : Type} [DecidableEq α]

/-- main.py:55-58 `strips_to_sas_dictionary`: the facts that represent an atom -/
def pairs (groups : List (List α)) (p : α) : List Fact :=
  groups.zipIdx.flatMap (fun g => (g.1.zipIdx.filter (fun x => x.1 == p)).map (fun x => ⟨g.2, x.2⟩))

/-- `dictionary[atom]`; `none` is a KeyError -/
def dictionary (groups : List (List α)) (p : α) : Option (List Fact) := if (pairs groups p).isEmpty then none else some (pairs groups p)

/-- main.py:62: the number of values of a variable -/
def rangeOf (groups : List (List α)) (v : Nat) : Nat := match groups[v]? with | none => 0 | some g => g.length + 1

/-- the dict `condition` of translate_strips_conditions_aux: possible values of variables -/
abbrev Doms := List (Nat × List Nat)

/-- `condition.get(var)` -/
def Doms.get (d : Doms) (v : Nat) : Option (List Nat) := (d.find? (fun e => e.1 == v)).map (·.2)

/-- `condition[var] = vals` -/
def Doms.put (d : Doms) (v : Nat) (vals : List Nat) : Doms :=
  match d.get v with
  | none => d ++ [(v, vals)]
  | some _ => d.map (fun e => if e.1 = v then (v, vals) else e)

/-- main.py:76-81: a positive literal with the given facts; `none` for conflicting conditions -/
def posPairs : List Fact → Doms → Option Doms
  | [], d => some d
  | f :: fs, d =>
    match d.get f.var with
    | none => posPairs fs (d.put f.var [f.val])
    | some vals => if f.val ∈ vals then posPairs fs (d.put f.var [f.val]) else none

/-- main.py:70-81: the positive literals -/
def posAll (groups : List (List α)) : List (Literal α) → Doms → Py Doms
  | [], d => .ok d
  | l :: ls, d =>
    if l.negated then posAll groups ls d
    else
      match dictionary groups l.atom with
      | none => .error
      | some fs => match posPairs fs d with | none => .none | some d => posAll groups ls d

/-- main.py:105-120: a negative literal with the given facts; `new` is new_condition, the flag is `done`.  Sets of values are lists in increasing order. -/
def negPairs (groups : List (List α)) : List Fact → Doms → Doms → Bool → Py (Doms × Doms × Bool)
  | [], d, new, done => .ok (d, new, done)
  | f :: fs, d, new, done =>
    match d.get f.var with
    | none =>
      match new.get f.var with
      | some _ => .error
      | none => negPairs groups fs d (new.put f.var ((List.range (rangeOf groups f.var)).filter (fun x => x != f.val))) done
    | some vals =>
      if (vals.filter (fun x => x != f.val && x < rangeOf groups f.var)).isEmpty then .none
      else negPairs groups fs (d.put f.var (vals.filter (fun x => x != f.val && x < rangeOf groups f.var))) new true

/-- main.py:83-85, 128, 133: sorted by the number of values; the sort of Python is stable, and so is this one -/
def byNumber (d : Doms) : Doms := d.insertionSort (fun a b => a.2.length ≤ b.2.length)

/-- main.py:122-130 -/
def addSmallest (d new : Doms) (done : Bool) : Doms :=
  if done then d
  else match byNumber new with | [] => d | c :: _ => d.put c.1 c.2

/-- main.py:87-130: the negative literals -/
def negAll (groups : List (List α)) : List (Literal α) → Doms → Py Doms
  | [], d => .ok d
  | l :: ls, d =>
    if l.negated then
      match dictionary groups l.atom with
      | none => .error
      | some fs =>
        match negPairs groups fs d [] false with
        | .error => .error
        | .none => .none
        | .ok (d, new, done) => negAll groups ls (addSmallest d new done)
    else negAll groups ls d

/-- main.py:134-147 `multiply_out` from flat_conds; taking an element out of an empty set is an error.  Values of sets come in increasing order. -/
def multiplyOut : Doms → List (List Fact) → Option (List (List Fact))
  | [], flat => some flat
  | (v, vals) :: cs, flat =>
    match vals, flat with
    | [x], [c] => multiplyOut cs [c ++ [⟨v, x⟩]]
    | [_], [] => multiplyOut cs []
    | [_], _ :: _ :: _ => none
    | vals, flat => multiplyOut cs (flat.flatMap (fun c => vals.map (fun x => c ++ [⟨v, x⟩])))

/-- main.py:65-149 `translate_strips_conditions_aux`; `multiply_out` is defined inside of the loop over the conditions, so it does not exist if there are none -/
def translateAux (groups : List (List α)) (conds : List (Literal α)) : Py (List (List Fact)) :=
  match posAll groups conds [] with
  | .error => .error
  | .none => .none
  | .ok d =>
    match negAll groups conds d with
    | .error => .error
    | .none => .none
    | .ok d => if conds.isEmpty then .error else match multiplyOut (byNumber d) [[]] with | none => .error | some cs => .ok cs

/-- main.py:152-166 `translate_strips_conditions` -/
def translateConds (groups mutexGroups : List (List α)) (conds : List (Literal α)) : Py (List (List Fact)) :=
  if conds.isEmpty then .ok [[]]
  else
    match translateAux mutexGroups conds with
    | .error => .error
    | .none => .none
    | .ok _ => translateAux groups conds

/-- conditions.py:349, 370 `negate` -/
def negate (l : Literal α) : Literal α := ⟨!l.negated, l.atom⟩

/-- itertools.product -/
def product {β : Type} : List (List β) → List (List β)
  | [] => [[]]
  | c :: cs => c.flatMap (fun x => (product cs).map (fun r => x :: r))

/-- main.py:185-200 `negate_and_translate_condition` -/
def negateConds (groups mutexGroups : List (List α)) (condition : List (List (Literal α))) : Py (List (List Fact)) :=
  if condition.any (fun c => c.isEmpty) then .none
  else
    match gather (fun c => translateConds groups mutexGroups (c.map negate)) (product condition) with
    | none => .error
    | some [] => .none
    | some (c :: cs) => .ok (c :: cs)

/-- actions.py:118-120: add effects -/
def addEffects (a : Action α) : List (List (Literal α) × α) := (a.effects.filter (fun e => !e.2.negated)).map (fun e => (e.1, e.2.atom))

/-- actions.py:125-127: delete effects -/
def delEffects (a : Action α) : List (List (Literal α) × α) :=
  ((a.effects.filter (fun e => e.2.negated)).map (fun e => (e.1, e.2.atom))).filter (fun e => !(addEffects a).contains e)

/-- what an add effect contributes for a fact: the conditions in both representations -/
structure AddEntry (α : Type) where
  fact : Fact
  conds : List (List Fact)
  orig : List (Literal α)

/-- main.py:210-218: one add effect -/
def addEntries (groups mutexGroups : List (List α)) (e : List (Literal α) × α) : Py (List (AddEntry α)) :=
  match translateConds groups mutexGroups e.1 with
  | .error => .error
  | .none => .none
  | .ok cs => match dictionary groups e.2 with | none => .error | some fs => .ok (fs.map (fun f => ⟨f, cs, e.1⟩))

/-- main.py:222-229: one delete effect: facts and conditions -/
def delEntry (groups mutexGroups : List (List α)) (e : List (Literal α) × α) : Py (List (List Fact × List (List Fact))) :=
  match translateConds groups mutexGroups e.1 with
  | .error => .error
  | .none => .none
  | .ok cs => match dictionary groups e.2 with | none => .error | some fs => .ok [(fs, cs)]

/-- the first occurrences -/
def firsts : List Nat → List Nat
  | [] => []
  | x :: xs => x :: (firsts xs).filter (fun y => y != x)

/-- main.py:233, 240: the order in which delete effects are handled: by variable, value and effect; the number of the effect stands for its list of conditions, which is shared by all facts of the effect -/
def delOrder (dels : List (List Fact × List (List Fact))) : List (Fact × Nat) :=
  (firsts ((dels.zipIdx.flatMap (fun d => d.1.1.map (fun f => (f, d.2)))).map (fun u => u.1.var))).flatMap (fun v =>
    (firsts (((dels.zipIdx.flatMap (fun d => d.1.1.map (fun f => (f, d.2)))).filter (fun u => u.1.var == v)).map (fun u => u.1.val))).flatMap (fun x =>
      (dels.zipIdx.flatMap (fun d => d.1.1.map (fun f => (f, d.2)))).filter (fun u => u.1 == ⟨v, x⟩)))

/-- main.py:243, 260: the variable has another value in the condition -/
def clash (c : List Fact) (f : Fact) : Bool := match lookup c f.var with | none => false | some x => x != f.val

/-- main.py:245, 265: `cond[var] = val` if there is no clash -/
def insertFact (c : List Fact) (f : Fact) : List Fact := match lookup c f.var with | none => c ++ [f] | some _ => c

/-- main.py:259-265: both conditions -/
def merge : List Fact → List Fact → Option (List Fact)
  | c, [] => some c
  | c, f :: fs => if clash c f then none else merge (insertFact c f) fs

/-- main.py:233-267: the loop over the delete effects; `shared` are the lists of conditions of the effects, which are changed -/
def delLoop (none_of_those : Nat → Nat) (noAdd : Nat → Py (List (List Fact))) : List (Fact × Nat) → List (List (List Fact)) → Option (List Effect)
  | [], _ => some []
  | (f, i) :: us, shared =>
    match noAdd f.var with
    | .error => none
    | .none => delLoop none_of_those noAdd us shared
    | .ok ns =>
      match delLoop none_of_those noAdd us (shared.modify i (fun cs => cs.map (fun c => if clash c f then c else insertFact c f))) with
      | none => none
      | some r =>
        some (((shared[i]?).getD []).flatMap (fun c => if clash c f then [] else (ns.filterMap (merge (insertFact c f))).map (fun m => ⟨m, ⟨f.var, none_of_those f.var⟩⟩)) ++ r)

/-- main.py:206-267: the effects of the operator, one for each variable, value and condition -/
def operatorEffects (groups mutexGroups : List (List α)) (a : Action α) : Option (List Effect) :=
  match gather (addEntries groups mutexGroups) (addEffects a) with
  | none => none
  | some adds =>
    match gather (delEntry groups mutexGroups) (delEffects a) with
    | none => none
    | some dels =>
      match delLoop (fun v => rangeOf groups v - 1) (fun v => negateConds groups mutexGroups ((adds.filter (fun e => e.fact.var == v)).map (·.orig))) (delOrder dels) (dels.map (·.2)) with
      | none => none
      | some r => some (adds.flatMap (fun e => e.conds.map (fun c => ⟨c, e.fact⟩)) ++ r)

/-- main.py:330-364 `prune_stupid_effect_conditions`; the flag: there is an effect that produces the other value -/
def prune (f : Fact) (dual : Bool) (conds : List (List Fact)) : List (List Fact) :=
  if dual then conds
  else if (conds.map (fun c => c.filter (fun g => g != ⟨f.var, 1 - f.val⟩))).any (fun c => c.isEmpty) then [[]]
  else conds.map (fun c => c.filter (fun g => g != ⟨f.var, 1 - f.val⟩))

/-- main.py:289-295: the conditions for an effect, sorted and simplified -/
def effectConds (range : Nat) (effects : List Effect) (f : Fact) : List (List Fact) :=
  if range = 2 then
    prune f (effects.any (fun e => e.fact == ⟨f.var, 1 - f.val⟩)) ((effects.filter (fun e => e.fact == f)).map (fun e => e.conds.insertionSort (fun a b => toLex (a.var, a.val) ≤ toLex (b.var, b.val))))
  else (effects.filter (fun e => e.fact == f)).map (fun e => e.conds.insertionSort (fun a b => toLex (a.var, a.val) ≤ toLex (b.var, b.val)))

/-- main.py:285, 298-302: the value before; `implied` is implied_precondition, and empty without add_implied_preconditions -/
def valueBefore (range : Nat) (condition implied : List Fact) (f : Fact) : Option Nat :=
  match lookup condition f.var with
  | some x => some x
  | none => if range = 2 ∧ (⟨f.var, 1 - f.val⟩ : Fact) ∈ implied then some (1 - f.val) else none

/-- main.py:303-318: one condition of an effect -/
def prePostOf (condition : List Fact) (f : Fact) (pre : Option Nat) (c : List Fact) : Option PrePost :=
  if c.any (fun g => clash condition g) then none
  else some ⟨f.var, pre, f.val, c.filter (fun g => (lookup condition g.var).isNone)⟩

/-- main.py:281-319: all effects -/
def prePosts (range : Nat → Nat) (condition implied : List Fact) (effects : List Effect) : List PrePost :=
  ((effects.map (·.fact)).dedup).flatMap (fun f =>
    if lookup condition f.var = some f.val then []
    else (effectConds (range f.var) effects f).filterMap (prePostOf condition f (valueBefore (range f.var) condition implied f)))

/-- main.py:273-327 `build_sas_operator` -/
def buildOperator (keepNoOps : Bool) (range : Nat → Nat) (name : List Char) (cost : Nat) (condition implied : List Fact) (effects : List Effect) : Option SasOperator :=
  if (prePosts range condition implied effects).isEmpty && !keepNoOps then none
  else some (mkOperator name (condition.filter (fun f => !(prePosts range condition implied effects).any (fun e => e.var == f.var))) (prePosts range condition implied effects) cost)

/-- options of the translator -/
structure Options where
  partialEncoding : Bool
  addImplied : Bool
  keepNoOps : Bool

/-- main.py:646-651, 659-662: the variable of an atom that is alone in its group; the last one if there are several -/
def lonelyVar (groups : List (List α)) (p : α) : Option Nat := ((groups.zipIdx.filter (fun g => g.1 == [p])).getLast?).map (·.2)

/-- main.py:625-668 `build_implied_facts`: the facts implied by a fact; atoms of a group are different -/
def impliedFacts (groups mutexGroups : List (List α)) (f : Fact) : List Fact :=
  mutexGroups.flatMap (fun m => m.flatMap (fun p =>
    match lonelyVar groups p with
    | none => []
    | some v => (m.filter (fun q => q != p && (pairs groups q).contains f)).map (fun _ => ⟨v, 1⟩)))

/-- main.py:275-278: implied_precondition -/
def impliedPre (o : Options) (groups mutexGroups : List (List α)) (condition : List Fact) : List Fact :=
  if o.addImplied then condition.flatMap (impliedFacts groups mutexGroups) else []

/-- main.py:169-182, 203-270 `translate_strips_operator`.  The effects are the same for all conditions. -/
def translateOperator (o : Options) (groups mutexGroups : List (List α)) (a : Action α) : Option (List SasOperator) :=
  match translateConds groups mutexGroups a.pre with
  | .error => none
  | .none => some []
  | .ok [] => some []
  | .ok (c :: cs) =>
    match operatorEffects groups mutexGroups a with
    | none => none
    | some es => some ((c :: cs).filterMap (fun c => buildOperator o.keepNoOps (rangeOf groups) a.name a.cost c (impliedPre o groups mutexGroups c) es))

/-- main.py:367-380 `translate_strips_axiom`, sas_tasks.py:432-438 -/
def translateAxiom (groups mutexGroups : List (List α)) (r : Strips.Rule α) : Py (List SasAxiom) :=
  match translateConds groups mutexGroups r.body with
  | .error => .error
  | .none => .none
  | .ok cs =>
    match dictionary groups r.head with
    | some [f] => if f.val ≤ 1 then .ok (cs.map (fun c => ⟨c.insertionSort (fun a b => toLex (a.var, a.val) ≤ toLex (b.var, b.val)), f⟩)) else .error
    | _ => .error

/-- main.py:463-467: one initial atom -/
def initFacts (groups : List (List α)) : List Fact → List Nat → Option (List Nat)
  | [], s => some s
  | f :: fs, s =>
    match s[f.var]? with
    | none => none
    | some x => if x ≠ rangeOf groups f.var - 1 ∧ x ≠ f.val then none else initFacts groups fs (s.set f.var f.val)

/-- main.py:459-467: initial values; atoms without facts are static -/
def initValues (groups : List (List α)) : List α → List Nat → Option (List Nat)
  | [], s => some s
  | p :: ps, s => match initFacts groups (pairs groups p) s with | none => none | some s => initValues groups ps s

/-- main.py:495-499: the layer of a variable; `none` is -1 -/
def layerNumbers (groups : List (List α)) : List (α × Nat) → List (Option Nat) → Option (List (Option Nat))
  | [], ls => some ls
  | (p, n) :: ps, ls => match dictionary groups p with | some [f] => layerNumbers groups ps (ls.set f.var (some n)) | _ => none

/-- main.py:615-621: a group of `build_mutex_key` -/
def mutexKey (groups : List (List α)) : List α → Option (List Fact)
  | [] => some []
  | p :: ps =>
    match dictionary groups p with
    | some [f] => match mutexKey groups ps with | none => none | some r => some (f :: r)
    | _ => none

/-- main.py:569-580, sas_tasks.py:198-200: mutex groups of the task -/
def mutexes (o : Options) (groups mutexGroups : List (List α)) : Option (List (List Fact)) :=
  if o.partialEncoding then
    (Mas.mapAll (mutexKey groups) mutexGroups).map (fun ms => ms.map (fun m => m.insertionSort (fun a b => toLex (a.var, a.val) ≤ toLex (b.var, b.val))))
  else some []

/-- main.py:506-524 `trivial_task` -/
def trivialTask (solvable : Bool) : SasTask :=
  ⟨[⟨none, ["Atom dummy(val1)".toList, "Atom dummy(val2)".toList]⟩], [], [0], [⟨0, if solvable then 0 else 1⟩], [], [], true⟩

/-- main.py:383-390: the operators for an action -/
def operatorsFor (o : Options) (groups mutexGroups : List (List α)) (a : Action α) : Py (List SasOperator) := match translateOperator o groups mutexGroups a with | none => .error | some l => .ok l

/-- sas_tasks.py:34-35: the order of operators; names end with a parenthesis in the code -/
def operatorKey (o : SasOperator) : List Char ×ₗ List (Nat ×ₗ Nat) ×ₗ List (Nat ×ₗ Int ×ₗ Nat ×ₗ List (Nat ×ₗ Nat)) :=
  toLex (o.name ++ [')'], toLex (o.prevail.map (fun f => toLex (f.var, f.val)), o.prePost.map (·.key)))

/-- sas_tasks.py:36-37: the order of axioms -/
def axiomKey (a : SasAxiom) : List (Nat ×ₗ Nat) ×ₗ Nat ×ₗ Nat := toLex (a.conds.map (fun f => toLex (f.var, f.val)), toLex (a.effect.var, a.effect.val))

/-- main.py:489-503, sas_tasks.py:22-38: operators and axioms -/
def translateRest (o : Options) (groups mutexGroups : List (List α)) (names : List (List (List Char))) (t : StripsTask α) (init : List Nat) (goal : List Fact) : Option SasTask :=
  match gather (operatorsFor o groups mutexGroups) t.actions,
    gather (translateAxiom groups mutexGroups) t.axioms, layerNumbers groups t.layers (groups.map (fun _ => none)), mutexes o groups mutexGroups with
  | some ops, some axs, some layers, some ms =>
    some ⟨(layers.zip names).map (fun v => ⟨v.1, v.2⟩), ms, init, goal.insertionSort (fun a b => toLex (a.var, a.val) ≤ toLex (b.var, b.val)),
      ops.insertionSort (fun a b => operatorKey a ≤ operatorKey b), axs.insertionSort (fun a b => axiomKey a ≤ axiomKey b), t.metric⟩
  | _, _, _, _ => none

/-- main.py:430-503 `translate_task`, after axiom_rules.handle_axioms, and main.py:554-587.  `names` is translation_key. -/
def translateTask (o : Options) (groups mutexGroups : List (List α)) (names : List (List (List Char))) (t : StripsTask α) : Option SasTask :=
  if o.partialEncoding && !(groups.flatten.all (fun p => (pairs groups p).length == 1)) then none
  else
    match initValues groups t.init (groups.map (fun g => g.length)) with
    | none => none
    | some init =>
      match translateConds groups mutexGroups t.goal with
      | .error => none
      | .none => some (trivialTask false)
      | .ok [] => none
      | .ok (_ :: _ :: _) => none
      | .ok [[]] => some (trivialTask true)
      | .ok [f :: fs] => translateRest o groups mutexGroups names t init (f :: fs)

end
end Verif.StripsToSas
