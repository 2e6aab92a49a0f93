import Verif.Spec.SasFile
import Verif.Model.Axioms
import Verif.Model.PlanFiles

/-
Model of the reader for translator output: src/search/utils/task_lexer.cc and src/search/tasks/root_task.cc.

Simplifications: a file is the list of its characters; characters that are not ASCII are not white space.  Messages, line numbers and the
contexts of errors are not modelled.  Memory that is reserved for announced numbers of entries is not modelled.
-/
namespace Verif.SasFile

/-- outcome of a function: a value; a `TaskParserError`, which ends the planner with SEARCH_INPUT_ERROR (or the exit in line 649); the ABORT of the lexer; the access to
`variables[var]` where `var` is at least the number of variables; other undefined behaviour -/
inductive Res (α : Type) where
  | ok (a : α)
  | err
  | abort
  | badVariable (var num : Nat)
  | ub

/-- the lexer: the rest of the stream (`none` if its `eof()` is true), and the rest of the tokens (without the sentinel) if it is in line reading mode -/
structure Lexer where
  stream : Option (List Char)
  tokens : Option (List (List Char))

/-- functions that use the lexer -/
def Read (α : Type) := Lexer → Res (α × Lexer)

def Read.pure {α : Type} (a : α) : Read α := fun l => .ok (a, l)

def Read.bind {α β : Type} (p : Read α) (f : α → Read β) : Read β := fun l =>
  match p l with
  | .ok (a, l) => f a l
  | .err => .err
  | .abort => .abort
  | .badVariable v n => .badVariable v n
  | .ub => .ub

instance : Monad Read where
  pure := Read.pure
  bind := Read.bind

/-! ### Lexer -/

/-- std::getline: the line and the rest of the stream; `none` if the end of the file has been reached -/
def getline : List Char → List Char × Option (List Char)
  | [] => ([], none)
  | c :: cs => if c = '\n' then ([], some cs) else (c :: (getline cs).1, (getline cs).2)

theorem getline_shorter : ∀ {cs r : List Char}, (getline cs).2 = some r → r.length < cs.length
  | [], r, h => by simp [getline] at h
  | c :: cs, r, h => by
    simp only [getline] at h
    split at h
    · simp only [Option.some.injEq] at h
      subst h
      simp
    · have := getline_shorter h
      simp only [List.length_cons]
      omega

/-- task_lexer.cc:15-21 `is_whitespace` -/
def blank (s : List Char) : Bool := s.all isSpace

/-- task_lexer.cc:51-63 `get_next_nonempty_line`: the line and the rest of the stream -/
def nextLine (s : Option (List Char)) : List Char × Option (List Char) :=
  match s with
  | none => ([], none)
  | some cs => if blank (getline cs).1 then nextLine (getline cs).2 else getline cs
termination_by (s.map (fun cs => cs.length + 1)).getD 0
decreasing_by
  cases h : (getline cs).2 with
  | none => simp
  | some r =>
    have := getline_shorter h
    simp only [Option.map_some, Option.getD_some]
    omega

/-- `while (stream >> word)`: the words of a line; `cur` is the part of the current word that has been read -/
def wordsAux : List Char → List Char → List (List Char)
  | [], cur => if cur = [] then [] else [cur]
  | c :: cs, cur =>
    if isSpace c then (if cur = [] then wordsAux cs [] else cur :: wordsAux cs [])
    else wordsAux cs (cur ++ [c])

def words (s : List Char) : List (List Char) := wordsAux s []

/-- task_lexer.cc:100-109 `read`, with lines 65-90 -/
def read : Read (List Char) := fun l =>
  match l.tokens with
  | some [] => .err
  | some (t :: ts) => .ok (t, ⟨l.stream, some ts⟩)
  | none =>
    if (nextLine l.stream).1 = [] then .err
    else
      match words (nextLine l.stream).1 with
      | [] => .ub
      | t :: ts => .ok (t, ⟨(nextLine l.stream).2, some ts⟩)

/-- task_lexer.cc:111-121 -/
def readLine : Read (List Char) := fun l =>
  match l.tokens with
  | some _ => .abort
  | none => if (nextLine l.stream).1 = [] then .err else .ok ((nextLine l.stream).1, ⟨(nextLine l.stream).2, none⟩)

/-- task_lexer.cc:123-137 -/
def confirmEol : Read Unit := fun l =>
  match l.tokens with
  | none => .abort
  | some [] => .ok ((), ⟨l.stream, none⟩)
  | some (_ :: _) => .err

/-- task_lexer.cc:139-147 -/
def confirmEnd : Read Unit := fun l =>
  match l.tokens with
  | some _ => .abort
  | none => if (nextLine l.stream).1 = [] then .ok ((), ⟨(nextLine l.stream).2, none⟩) else .err

/-! ### Numbers, lines and facts -/

/-- `error(...)` -/
def fail {α : Type} : Read α := fun _ => .err

/-- an error unless the condition holds -/
def require (b : Bool) : Read Unit := if b then pure () else fail

/-- std::stoi for a token without white space, which must be read completely; `none` is an error -/
def parseInt (token : List Char) : Option Int :=
  match token with
  | '-' :: ds => if ds ≠ [] ∧ ds.all PlanFiles.isDigit ∧ PlanFiles.toInt ds ≤ 2147483648 then some (-(PlanFiles.toInt ds : Int)) else none
  | '+' :: ds => if ds ≠ [] ∧ ds.all PlanFiles.isDigit ∧ PlanFiles.toInt ds ≤ 2147483647 then some (PlanFiles.toInt ds : Int) else none
  | ds => if ds ≠ [] ∧ ds.all PlanFiles.isDigit ∧ PlanFiles.toInt ds ≤ 2147483647 then some (PlanFiles.toInt ds : Int) else none

/-- root_task.cc:220-241 `parse_int` -/
def parse (token : List Char) : Read Int :=
  match parseInt token with
  | none => fail
  | some n => pure n

/-- root_task.cc:252-255 -/
def readInt : Read Int := do
  let t ← read
  parse t

/-- root_task.cc:244-250 `check_nat` -/
def checkNat (n : Int) : Read Nat := if 0 ≤ n then pure n.toNat else fail

/-- root_task.cc:258-262 -/
def readNat : Read Nat := do
  let n ← readInt
  checkNat n

/-- root_task.cc:268-275 -/
def readMagic (magic : List Char) : Read Unit := do
  let s ← readLine
  require (s = magic)

/-- root_task.cc:21-27; `default` is not set before line 695 -/
structure ExplicitVariable where
  domain : Nat
  name : List Char
  factNames : List (List Char)
  layer : Option Nat
  default : Nat
deriving DecidableEq

/-- root_task.cc:34-40, without `is_an_axiom`; effects as in the specification -/
structure ExplicitOperator where
  pre : List Fact
  effects : List Effect
  cost : Nat
  name : List Char
deriving DecidableEq

/-- root_task.cc:184-194 `check_fact` -/
def checkFact (vars : List ExplicitVariable) (f : Fact) : Read Unit :=
  match vars[f.var]? with
  | none => fail
  | some v => require (decide (f.val < v.domain))

/-- a loop that reads `n` entries, the first of which has the number `i` -/
def many {α : Type} : (n i : Nat) → (Nat → Read α) → Read (List α)
  | 0, _, _ => pure []
  | n + 1, i, p => do
    let a ← p i
    let as ← many n (i + 1) p
    pure (a :: as)

/-- the end of a line is only confirmed if the facts are on lines of their own -/
def eolUnless (single : Bool) : Read Unit := if single then pure () else confirmEol

/-- root_task.cc:290-301 -/
def readFact (single : Bool) (vars : List ExplicitVariable) : Read Fact := do
  let var ← readNat
  let value ← readNat
  checkFact vars ⟨var, value⟩
  eolUnless single
  pure ⟨var, value⟩

/-- root_task.cc:278-304 -/
def readFacts (single : Bool) (vars : List ExplicitVariable) : Read (List Fact) := do
  let count ← readNat
  eolUnless single
  many count 0 (fun _ => readFact single vars)

/-! ### The sections -/

/-- root_task.cc:499-512 -/
def readVersion : Read Unit := do
  readMagic "begin_version".toList
  let version ← readNat
  require (version = 3)
  confirmEol
  readMagic "end_version".toList

/-- root_task.cc:517-523 -/
def metricOf (n : Int) : Read Bool := if n = 1 then pure true else if n ≠ 0 then fail else pure false

/-- root_task.cc:514-528 -/
def readMetric : Read Bool := do
  readMagic "begin_metric".toList
  let n ← readInt
  let b ← metricOf n
  confirmEol
  readMagic "end_metric".toList
  pure b

/-- root_task.cc:324-329: the layer; `none` is -1 -/
def layerOfInt (n : Int) : Read (Option Nat) := if n < -1 then fail else if n = -1 then pure none else pure (some n.toNat)

/-- root_task.cc:306-350 -/
def readVariable : Read ExplicitVariable := do
  readMagic "begin_variable".toList
  let name ← readLine
  let n ← readInt
  let layer ← layerOfInt n
  confirmEol
  let domain ← readNat
  require (decide (1 ≤ domain))
  require (layer.isNone || decide (domain = 2))
  confirmEol
  let names ← many domain 0 (fun _ => readLine)
  readMagic "end_variable".toList
  pure ⟨domain, name, names, layer, 0⟩

/-- root_task.cc:530-546 -/
def readVariables : Read (List ExplicitVariable) := do
  let count ← readNat
  require (decide (1 ≤ count))
  confirmEol
  many count 0 (fun _ => readVariable)

/-- root_task.cc:567-591: the facts of a mutex group -/
def readMutex (vars : List ExplicitVariable) : Read (List Fact) := do
  readMagic "begin_mutex_group".toList
  let n ← readNat
  confirmEol
  let fs ← many n 0 (fun _ => readFact false vars)
  readMagic "end_mutex_group".toList
  pure fs

/-- root_task.cc:593-610: the pairs that are inserted for a group -/
def mutexPairs (group : List Fact) : List (Fact × Fact) :=
  group.flatMap (fun f => (group.filter (fun g => f.var ≠ g.var)).map (fun g => (f, g)))

/-- root_task.cc:548-615; the result is `inconsistent_facts` as a list of pairs -/
def readMutexes (vars : List ExplicitVariable) : Read (List (Fact × Fact)) := do
  let n ← readNat
  confirmEol
  let groups ← many n 0 (fun _ => readMutex vars)
  pure (groups.flatMap mutexPairs)

/-- root_task.cc:630-632 -/
def readInitValue (vars : List ExplicitVariable) (i : Nat) : Read Nat := do
  let x ← readNat
  confirmEol
  checkFact vars ⟨i, x⟩
  pure x

/-- root_task.cc:617-638 -/
def readInit (vars : List ExplicitVariable) : Read (List Nat) := do
  readMagic "begin_state".toList
  let xs ← many vars.length 0 (readInitValue vars)
  readMagic "end_state".toList
  pure xs

/-- root_task.cc:640-664 -/
def readGoal (vars : List ExplicitVariable) : Read (List Fact) := do
  readMagic "begin_goal".toList
  let goals ← readFacts false vars
  readMagic "end_goal".toList
  require (!goals.isEmpty)
  require (decide (goals.map (·.var)).Nodup)
  pure goals

/-- `variables[var]` -/
def variableAt (vars : List ExplicitVariable) (var : Nat) : Read ExplicitVariable := fun l =>
  match vars[var]? with
  | none => .badVariable var vars.length
  | some v => .ok (v, l)

/-- root_task.cc:414-424: the value before an effect -/
def checkPre (vars : List ExplicitVariable) (var : Nat) (n : Int) : Read (List Fact) :=
  if n < -1 then fail
  else if n ≠ -1 then do
    checkFact vars ⟨var, n.toNat⟩
    pure [⟨var, n.toNat⟩]
  else pure []

/-- root_task.cc:402-431; the result is what is added to the preconditions, and the effect -/
def readConditionalEffect (vars : List ExplicitVariable) : Read (List Fact × Effect) := do
  let conds ← readFacts true vars
  let var ← readNat
  let v ← variableAt vars var
  require v.layer.isNone
  let n ← readInt
  let pre ← checkPre vars var n
  let post ← readNat
  checkFact vars ⟨var, post⟩
  confirmEol
  pure (pre, ⟨conds, ⟨var, post⟩⟩)

/-- root_task.cc:466-474: the cost -/
def operatorCost (metric : Bool) (n : Int) : Read Nat :=
  if metric then checkNat n else pure 1

/-- root_task.cc:433-480 -/
def readOperator (metric : Bool) (vars : List ExplicitVariable) : Read ExplicitOperator := do
  readMagic "begin_operator".toList
  let name ← readLine
  let pre ← readFacts false vars
  let count ← readNat
  require (decide (1 ≤ count))
  confirmEol
  let effects ← many count 0 (fun _ => readConditionalEffect vars)
  let n ← readInt
  let cost ← operatorCost metric n
  confirmEol
  readMagic "end_operator".toList
  pure ⟨pre ++ effects.flatMap (·.1), effects.map (·.2), cost, name⟩

/-- root_task.cc:200-216: a condition on a variable with this layer and default value; a layer -1 is below all others -/
def layerAllowed (head : Nat) (v : ExplicitVariable) (val : Nat) : Bool :=
  match v.layer with
  | none => true
  | some l => decide (l ≤ head) && !(decide (l = head) && decide (val = v.default))

/-- root_task.cc:196-218 `check_layering_condition` -/
def checkLayering (head : Nat) (conds : List Fact) (vars : List ExplicitVariable) : Read Unit :=
  match conds with
  | [] => pure ()
  | f :: fs => do
    let v ← variableAt vars f.var
    require (layerAllowed head v f.val)
    checkLayering head fs vars

/-- root_task.cc:357-363: the layer of the head; an error for variables that are not derived -/
def headLayer (v : ExplicitVariable) : Read Nat :=
  match v.layer with
  | none => fail
  | some l => pure l

/-- root_task.cc:364-370: the value before the effect must be a value of the variable -/
def checkAxiomPre (vars : List ExplicitVariable) (var : Nat) (n : Int) : Read Nat :=
  if n < 0 then fail
  else do
    checkFact vars ⟨var, n.toNat⟩
    pure n.toNat

/-- root_task.cc:352-400 and 482-497 -/
def readAxiom (vars : List ExplicitVariable) : Read ExplicitOperator := do
  readMagic "begin_rule".toList
  let conds ← readFacts false vars
  let var ← readNat
  let v ← variableAt vars var
  let layer ← headLayer v
  let n ← readInt
  let pre ← checkAxiomPre vars var n
  let post ← readNat
  checkFact vars ⟨var, post⟩
  require (pre = v.default)
  require (post ≠ v.default)
  checkLayering layer conds vars
  confirmEol
  readMagic "end_rule".toList
  pure ⟨[⟨var, pre⟩], [⟨conds, ⟨var, post⟩⟩], 0, "<axiom>".toList⟩

/-- root_task.cc:666-683: operators or axioms -/
def readActions (p : Read ExplicitOperator) : Read (List ExplicitOperator) := do
  let count ← readNat
  confirmEol
  many count 0 (fun _ => p)

/-- root_task.cc:42-49: the task -/
structure Root where
  vars : List ExplicitVariable
  mutexes : List (Fact × Fact)
  ops : List ExplicitOperator
  axioms : List ExplicitOperator
  init : List Nat
  goal : List Fact
deriving DecidableEq

/-- what the interface AbstractTask shows of the task, without names and mutexes -/
def Root.task (r : Root) : Task where
  vars := r.vars.map (fun v => ⟨v.domain, v.layer, v.default⟩)
  ops := r.ops.map (fun o => ⟨o.pre, o.effects, o.cost⟩)
  axioms := r.axioms.map (fun o => ⟨o.pre, o.effects, o.cost⟩)
  init := r.init
  goal := r.goal

/-- root_task.cc:793-802 `are_facts_mutex` -/
def Root.factsMutex (r : Root) (f g : Fact) : Bool := if f.var = g.var then decide (f.val ≠ g.val) else decide ((f, g) ∈ r.mutexes)

/-- root_task.cc:693-696: the default values -/
def setDefaults (vars : List ExplicitVariable) (init : List Nat) : List ExplicitVariable :=
  (vars.zip init).map (fun v => { v.1 with default := v.2 })

/-- root_task.cc:688-703 -/
def readSections : Read Root := do
  readVersion
  let metric ← readMetric
  let vars ← readVariables
  let mutexes ← readMutexes vars
  let init ← readInit vars
  let goal ← readGoal (setDefaults vars init)
  let ops ← readActions (readOperator metric (setDefaults vars init))
  let axioms ← readActions (readAxiom (setDefaults vars init))
  confirmEnd
  pure ⟨setDefaults vars init, mutexes, ops, axioms, init, goal⟩

/-- root_task.cc:705-719: the derived variables of the initial state are evaluated -/
def evaluateInit (r : Root) : Res Root :=
  match Axioms.evaluate r.task r.init with
  | none => .ub
  | some s => .ok { r with init := s }

/-- root_task.cc:688-730 `read_task`, `parse`; the initial stream has not reached the end of the file -/
def readTask (file : List Char) : Res Root :=
  match readSections ⟨some file, none⟩ with
  | .ok (r, _) => evaluateInit r
  | .err => .err
  | .abort => .abort
  | .badVariable v n => .badVariable v n
  | .ub => .ub

end Verif.SasFile
