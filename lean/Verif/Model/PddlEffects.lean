import Verif.Spec.PddlEffects

/-
Model of the normalisation of PDDL effects: src/translate/pddl/effects.py and `add_effect` in src/translate/pddl_parser/parsing_functions.py.

`none` stands for a failed assertion. Simplifications: conditions are of any type with functions for conjunctions and simplification; the expressions of cost effects are left out. The constructors merge directly nested conditions, quantifiers and conjunctions also in the parsed effect, before the normalisation; here they are only merged by the normalisation, so that conjunctions of three or more conditions can be nested differently before they are simplified.
-/
namespace Verif.Effects

variable {V T O C A G : Type}

/-- the constructor of `ConjunctiveEffect`, src/translate/pddl/effects.py:140-147 -/
def flattenConj : List (Eff V T C A) → List (Eff V T C A)
  | [] => []
  | .conj es :: fs => es ++ flattenConj fs
  | e :: fs => e :: flattenConj fs

/-- the constructor of `UniversalEffect`, src/translate/pddl/effects.py:115-121 -/
def mkAll (ps : List (V × T)) : Eff V T C A → Eff V T C A
  | .all qs e => .all (ps ++ qs) e
  | e => .all ps e

/-- the constructor of `ConditionalEffect`, src/translate/pddl/effects.py:85-91 -/
def mkWhen (L : Lang V T O C A G) (c : C) : Eff V T C A → Eff V T C A
  | .when d e => .when (L.and c d) e
  | e => .when c e

/-- the assertion in src/translate/pddl/effects.py:102 -/
def simpleOrWhen : Eff V T C A → Bool
  | .simple _ _ => true
  | .when _ _ => true
  | _ => false

/-- the assertion in src/translate/pddl/effects.py:130-131 -/
def simpleWhenOrAll : Eff V T C A → Bool
  | .simple _ _ => true
  | .when _ _ => true
  | .all _ _ => true
  | _ => false

/-- src/translate/pddl/effects.py:97-110 (`ConditionalEffect.normalize`), after the normalisation of its effect -/
def normalizeWhen (L : Lang V T O C A G) (c : C) : Eff V T C A → Option (Eff V T C A)
  | .conj es => if es.all simpleOrWhen then some (.conj (flattenConj (es.map (mkWhen L c)))) else none
  | .all ps e => some (mkAll ps (mkWhen L c e))
  | e => some (mkWhen L c e)

/-- src/translate/pddl/effects.py:125-135 (`UniversalEffect.normalize`), after the normalisation of its effect -/
def normalizeAll (ps : List (V × T)) : Eff V T C A → Option (Eff V T C A)
  | .conj es => if es.all simpleWhenOrAll then some (.conj (flattenConj (es.map (mkAll ps)))) else none
  | e => some (mkAll ps e)

mutual
/-- the methods `normalize`, src/translate/pddl/effects.py:97-183 -/
def normalize (L : Lang V T O C A G) : Eff V T C A → Option (Eff V T C A)
  | .simple b a => some (.simple b a)
  | .cost => some .cost
  | .conj es => (normalizeList L es).map (fun es' => .conj (flattenConj es'))
  | .all ps e => match normalize L e with | none => none | some e' => normalizeAll ps e'
  | .when c e => match normalize L e with | none => none | some e' => normalizeWhen L c e'
/-- the loop in src/translate/pddl/effects.py:152-156 -/
def normalizeList (L : Lang V T O C A G) : List (Eff V T C A) → Option (List (Eff V T C A))
  | [] => some []
  | e :: es =>
    match normalize L e with
    | none => none
    | some e' => (normalizeList L es).map (e' :: ·)
end

def isCost : Eff V T C A → Bool
  | .cost => true
  | _ => false

/-- the methods `extract_cost`, src/translate/pddl/effects.py:111-186: the effect without cost effects; `none` if nothing is left -/
def extractCost : Eff V T C A → Option (Eff V T C A)
  | .conj es => some (.conj (flattenConj (es.filter (fun e => !isCost e))))
  | .cost => none
  | e => some e

/-- src/translate/pddl_parser/parsing_functions.py:361-382: parameters, condition and literal of an effect that is no conjunction -/
def toFlat (L : Lang V T O C A G) : Eff V T C A → Option (Flat V T C A)
  | .all ps (.when c (.simple b a)) => some ⟨ps, L.simplified c, b, a⟩
  | .all ps (.simple b a) => some ⟨ps, L.simplified L.truth, b, a⟩
  | .when c (.simple b a) => some ⟨[], L.simplified c, b, a⟩
  | .simple b a => some ⟨[], L.simplified L.truth, b, a⟩
  | _ => none

/-- src/translate/pddl_parser/parsing_functions.py:383-390: adding an effect to the effects of the action -/
def addFlat [DecidableEq (Flat V T C A)] (f : Flat V T C A) (result : List (Flat V T C A)) : List (Flat V T C A) :=
  let contradiction := { f with positive := !f.positive }
  if contradiction ∉ result then result ++ [f]
  else if contradiction.positive = false then result.erase contradiction ++ [f]
  else result

/-- the loop of src/translate/pddl_parser/parsing_functions.py:356-359, for effects that are no conjunctions -/
def addAll (L : Lang V T O C A G) [DecidableEq (Flat V T C A)] : List (Eff V T C A) → List (Flat V T C A) → Option (List (Flat V T C A))
  | [], result => some result
  | e :: es, result =>
    match toFlat L e with
    | none => none
    | some f => addAll L es (addFlat f result)

/-- src/translate/pddl_parser/parsing_functions.py:352-390 (`add_effect`); a conjunction within a conjunction does not occur, as constructors flatten them -/
def addEffect (L : Lang V T O C A G) [DecidableEq (Flat V T C A)] : Eff V T C A → List (Flat V T C A) → Option (List (Flat V T C A))
  | .conj es, result => addAll L es result
  | e, result => addAll L [e] result

/-- src/translate/pddl_parser/parsing_functions.py:339-349 (`parse_effects`), for the nested effect of an action; without an effect that is left, `add_effect` fails an assertion -/
def parseEffects (L : Lang V T O C A G) [DecidableEq (Flat V T C A)] (e : Eff V T C A) : Option (List (Flat V T C A)) :=
  match normalize L e with
  | none => none
  | some e' =>
    match extractCost e' with
    | none => none
    | some r => addEffect L r []

end Verif.Effects
