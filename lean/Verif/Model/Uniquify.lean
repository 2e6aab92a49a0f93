import Verif.Model.Normalize
import Verif.Spec.Formula

/-
Model of the way from PDDL formulas to conditions with different names of variables: `parse_condition` (src/translate/pddl_parser/parsing_functions.py) for lists that are formulas, and `uniquify_variables` (src/translate/pddl).
-/
namespace Verif.Uniquify
open Verif.Datalog Verif.Lifted Verif.Pddl

variable {P V O T F : Type}

mutual
/-- parsing_functions.py:219-283 `parse_condition_aux`: the condition in negation normal form, `neg` is the parameter `negated`; here for formulas instead of nested lists -/
def nnf (neg : Bool) : Formula P V O T → Cond P V O T
  | .atom a => .lit neg a
  | .not f => nnf (!neg) f
  | .and fs => if neg then .disj (nnfs neg fs) else .conj (nnfs neg fs)
  | .or fs => if neg then .conj (nnfs neg fs) else .disj (nnfs neg fs)
  | .imply f g => if neg then .conj [nnf (!neg) f, nnf neg g] else .disj [nnf (!neg) f, nnf neg g]
  | .forall_ ps f => if neg then .ex ps (nnf neg f) else .all ps (nnf neg f)
  | .exists_ ps f => if neg then .all ps (nnf neg f) else .ex ps (nnf neg f)
def nnfs (neg : Bool) : List (Formula P V O T) → List (Cond P V O T)
  | [] => []
  | f :: fs => nnf neg f :: nnfs neg fs
end

/-- pddl_types.py:57 `self.name + str(counter)` -/
def number (v : List Char) (i : Nat) : List Char := v ++ Nat.toDigits 10 i

variable [DecidableEq V]

/-- the new name of a variable: conditions.py:323-325 `renamings.get(arg, arg)`; `ren` has the newest pairs first -/
def rn (ren : List (V × V)) (v : V) : V := (ren.lookup v).getD v

/-- conditions.py:322-325 `rename_variables` -/
def renameAtom (ren : List (V × V)) (a : SymAtom P V O) : SymAtom P V O :=
  ⟨a.pred, a.args.map (fun t => match t with | .var v => .var (rn ren v) | .const o => .const o)⟩

/-- pddl_types.py:56-58: the first of the names `num v 1`, `num v 2`, … (a name with a number) that is not in the map of types.  The code counts without a bound; one of the first names is not in the map, so that a bound is enough (`freshName_defined`). -/
def freshName (num : V → Nat → V) (tm : List (V × T)) (v : V) : Option V :=
  ((List.range (tm.length + 1)).map (fun i => num v (i + 1))).find? (fun w => !(names tm).contains w)

/-- pddl_types.py:52-61 `uniquify_name` for all parameters: new parameters, map of types and renamings -/
def uniqParams (num : V → Nat → V) : List (V × T) → List (V × T) → List (V × V) → Option (List (V × T) × List (V × T) × List (V × V))
  | [], tm, ren => some ([], tm, ren)
  | p :: ps, tm, ren =>
    if (names tm).contains p.1 then
      match freshName num tm p.1 with
      | none => none
      | some w => (uniqParams num ps (tm ++ [(w, p.2)]) ((p.1, w) :: ren)).map (fun r => ((w, p.2) :: r.1, r.2))
    else (uniqParams num ps (tm ++ [p]) ren).map (fun r => (p :: r.1, r.2))

mutual
/-- conditions.py:55-62, 228-233, 319-320 `uniquify_variables`: the new condition and map of types -/
def uniq (num : V → Nat → V) : Cond P V O T → List (V × T) → List (V × V) → Option (Cond P V O T × List (V × T))
  | .truth, tm, _ => some (.truth, tm)
  | .falsity, tm, _ => some (.falsity, tm)
  | .lit n a, tm, ren => some (.lit n (renameAtom ren a), tm)
  | .conj cs, tm, ren => (uniqAll num cs tm ren).map (fun r => (.conj r.1, r.2))
  | .disj cs, tm, ren => (uniqAll num cs tm ren).map (fun r => (.disj r.1, r.2))
  | .all ps b, tm, ren =>
    match uniqParams num ps tm ren with
    | none => none
    | some r => (uniq num b r.2.1 r.2.2).map (fun r' => (.all r.1 r'.1, r'.2))
  | .ex ps b, tm, ren =>
    match uniqParams num ps tm ren with
    | none => none
    | some r => (uniq num b r.2.1 r.2.2).map (fun r' => (.ex r.1 r'.1, r'.2))
def uniqAll (num : V → Nat → V) : List (Cond P V O T) → List (V × T) → List (V × V) → Option (List (Cond P V O T) × List (V × T))
  | [], tm, _ => some ([], tm)
  | c :: cs, tm, ren =>
    match uniq num c tm ren with
    | none => none
    | some r => (uniqAll num cs r.2 ren).map (fun r' => (r.1 :: r'.1, r'.2))
end

/-- parsing_functions.py:212-216 `parse_condition`: no variable has a type yet -/
def parseCondition (num : V → Nat → V) (f : Formula P V O T) : Option (Cond P V O T) := (uniq num (nnf false f) [] []).map (fun r => Normalize.simplify r.1)

/-- effects.py:46-51 `uniquify_variables` -/
def uniqEffect (num : V → Nat → V) (f : PEffect P V O T) (tm : List (V × T)) : Option (PEffect P V O T × List (V × T)) :=
  match uniqParams num f.params tm [] with
  | none => none
  | some r => (uniq num f.cond r.2.1 r.2.2).map (fun r' => (⟨r.1, r'.1, f.negated, renameAtom r.2.2 f.atom⟩, r'.2))

/-- actions.py:50-51: all effects -/
def uniqEffects (num : V → Nat → V) : List (PEffect P V O T) → List (V × T) → Option (List (PEffect P V O T) × List (V × T))
  | [], tm => some ([], tm)
  | f :: fs, tm =>
    match uniqEffect num f tm with
    | none => none
    | some r => (uniqEffects num fs r.2).map (fun r' => (r.1 :: r'.1, r'.2))

/-- actions.py:47-51 `uniquify_variables` -/
def uniqAction (num : V → Nat → V) (A : PAction P V O T F) : Option (PAction P V O T F) :=
  match uniq num A.pre A.params [] with
  | none => none
  | some r => (uniqEffects num A.effects r.2).map (fun r' => { A with pre := r.1, effects := r'.1 })

/-- axioms.py:26-28 `uniquify_variables` -/
def uniqAxiom (num : V → Nat → V) (x : PAxiom P V O T) : Option (PAxiom P V O T) := (uniq num x.cond x.params []).map (fun r => { x with cond := r.1 })

/-- all actions, axioms and the goal (for which `parse_condition` calls `uniquify_variables`) -/
def uniqTask (num : V → Nat → V) (Q : PTask P V O T F) : Option (PTask P V O T F) :=
  match Mas.mapAll (uniqAction num) Q.actions with
  | none => none
  | some As =>
    match Mas.mapAll (uniqAxiom num) Q.axioms with
    | none => none
    | some xs => (uniq num Q.goal [] []).map (fun r => { Q with actions := As, axioms := xs, goal := r.1 })

end Verif.Uniquify
