import Verif.Spec.SasFile
import Verif.Model.PlanFiles

/-
Model of the output functions of src/translate/sas_tasks.py.  Each `print` writes its arguments, separated by blanks, and a line break (or the given
`end`).  A file is the list of its characters.
-/
namespace Verif.SasFile
open Verif.PlanFiles (digits)

/-- print of a line -/
def line (s : List Char) : List Char := s ++ ['\n']

/-- numbers that may be -1 -/
def optDigits (n : Option Nat) : List Char :=
  match n with
  | none => "-1".toList
  | some n => digits n

/-- print(var, val) -/
def factLine (f : Fact) : List Char := line (digits f.var ++ ' ' :: digits f.val)

/-- sas_tasks.py:181-190: one variable; `var` is its number -/
def outVariable (v : SasVariable) (var : Nat) : List Char :=
  line "begin_variable".toList ++ (line ("var".toList ++ digits var) ++ (line (optDigits v.layer) ++ (line (digits v.valueNames.length) ++
    ((v.valueNames.map line).flatten ++ line "end_variable".toList))))

/-- sas_tasks.py:179-190 -/
def outVariables (vs : List SasVariable) : List Char := line (digits vs.length) ++ (vs.zipIdx.map (fun v => outVariable v.1 v.2)).flatten

/-- sas_tasks.py:219-224 -/
def outMutex (m : List Fact) : List Char := line "begin_mutex_group".toList ++ (line (digits m.length) ++ ((m.map factLine).flatten ++ line "end_mutex_group".toList))

/-- sas_tasks.py:249-253 -/
def outInit (init : List Nat) : List Char := line "begin_state".toList ++ ((init.map (fun x => line (digits x))).flatten ++ line "end_state".toList)

/-- sas_tasks.py:269-274 -/
def outGoal (goal : List Fact) : List Char := line "begin_goal".toList ++ (line (digits goal.length) ++ ((goal.map factLine).flatten ++ line "end_goal".toList))

/-- sas_tasks.py:397-401: an effect; numbers are followed by a blank -/
def outPrePost (e : PrePost) : List Char :=
  digits e.conds.length ++ (' ' :: ((e.conds.map (fun (c : Fact) => digits c.var ++ (' ' :: (digits c.val ++ [' '])))).flatten ++
    line (digits e.var ++ ' ' :: (optDigits e.pre ++ ' ' :: digits e.post))))

/-- sas_tasks.py:390-403 -/
def outOperator (o : SasOperator) : List Char :=
  line "begin_operator".toList ++ (line o.name ++ (line (digits o.prevail.length) ++ ((o.prevail.map factLine).flatten ++ (line (digits o.prePost.length) ++
    ((o.prePost.map outPrePost).flatten ++ (line (digits o.cost) ++ line "end_operator".toList))))))

/-- sas_tasks.py:486-493; `effect[1]` is 0 or 1 (line 435) -/
def outAxiom (a : SasAxiom) : List Char :=
  line "begin_rule".toList ++ (line (digits a.conds.length) ++ ((a.conds.map factLine).flatten ++
    (line (digits a.effect.var ++ ' ' :: (digits (1 - a.effect.val) ++ ' ' :: digits a.effect.val)) ++ line "end_rule".toList)))

/-- sas_tasks.py:92-111 -/
def output (T : SasTask) : List Char :=
  line "begin_version".toList ++ (line (digits 3) ++ (line "end_version".toList ++ (line "begin_metric".toList ++ (line (digits (if T.metric then 1 else 0)) ++
    (line "end_metric".toList ++ (outVariables T.variables ++ (line (digits T.mutexes.length) ++ ((T.mutexes.map outMutex).flatten ++ (outInit T.init ++
      (outGoal T.goal ++ (line (digits T.operators.length) ++ ((T.operators.map outOperator).flatten ++ (line (digits T.axioms.length) ++
        (T.axioms.map outAxiom).flatten)))))))))))))

end Verif.SasFile
