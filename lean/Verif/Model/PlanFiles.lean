import Mathlib.Data.List.Basic

/-
Model of the plan files: they are written by the search component (src/search/plan_manager.cc) and read by the driver (driver/plan_manager.py).
A file is the list of its characters.
-/
namespace Verif.PlanFiles

/-- the characters of a digit below 10 -/
def digit (n : Nat) : Char := Char.ofNat (48 + n)

/-- decimal representation, as written by `<<` for an int ≥ 0 -/
def digits (n : Nat) : List Char := if n < 10 then [digit n] else digits (n / 10) ++ [digit (n % 10)]

/-- plan_manager.cc:63: the line of an operator -/
def opLine (name : List Char) : List Char := '(' :: (name ++ [')', '\n'])

/-- "unit cost" or "general cost" -/
def kind (unit : Bool) : List Char := if unit then "unit cost".toList else "general cost".toList

/-- plan_manager.cc:67-68: the last line -/
def costLine (cost : Nat) (unit : Bool) : List Char := "; cost = ".toList ++ (digits cost ++ (" (".toList ++ (kind unit ++ ")\n".toList)))

/-- plan_manager.cc:60-69: the characters of a plan file -/
def planFile (names : List (List Char)) (cost : Nat) (unit : Bool) : List Char := (names.map opLine).flatten ++ costLine cost unit

/-- plan_manager.cc:14-21; `none`: the sum of costs exceeds the ints -/
def planCost : List Nat → Nat → Option Nat
  | [], acc => some acc
  | c :: cs, acc => if acc + c < 2 ^ 31 then planCost cs (acc + c) else none

/-- plan_manager.py:11-16: the last line with its line break (Python iterates over the lines of the file); `cur` is the part of the current line that has been read -/
def lastLineAux : List Char → List Char → List Char → List Char
  | [], cur, last => if cur = [] then last else cur
  | c :: cs, cur, last => if c = '\n' then lastLineAux cs [] (cur ++ [c]) else lastLineAux cs (cur ++ [c]) last

def lastLine (content : List Char) : List Char := lastLineAux content [] []

def isDigit (c : Char) : Bool := decide (48 ≤ c.toNat ∧ c.toNat ≤ 57)

/-- int(...) of a string of digits -/
def toInt (ds : List Char) : Nat := ds.foldl (fun n c => 10 * n + (c.toNat - 48)) 0

/-- the rest of the line after the prefix -/
def strip : List Char → List Char → Option (List Char)
  | [], l => some l
  | _ :: _, [] => none
  | p :: ps, c :: cs => if p = c then strip ps cs else none

/-- plan_manager.py:8: the regular expression `; cost = (\d+) \((unit cost|general cost)\)\n` at the beginning of a line.  (The digits are followed by a blank, so there is only one way to match.) -/
def matchInfo (line : List Char) : Option (Nat × Bool) :=
  match strip "; cost = ".toList line with
  | none => none
  | some l =>
    if l.takeWhile isDigit = [] then none
    else
      match strip (" (".toList ++ (kind true ++ ")\n".toList)) (l.dropWhile isDigit) with
      | some _ => some (toInt (l.takeWhile isDigit), true)
      | none =>
        match strip (" (".toList ++ (kind false ++ ")\n".toList)) (l.dropWhile isDigit) with
        | some _ => some (toInt (l.takeWhile isDigit), false)
        | none => none

/-- plan_manager.py:19-28 -/
def parsePlan (content : List Char) : Option (Nat × Bool) := matchInfo (lastLine content)

/-- driver/plan_manager.py:31-39 -/
structure Manager where
  costs : List Nat
  unit : Option Bool

/-- the numbered plan files -/
abbrev Files := Nat → Option (List Char)

/-- the outcome of process_new_plans: exit_with_driver_critical_error ends the program -/
inductive Outcome where
  | error
  | ok (m : Manager) (fs : Files)

/-- unlink of a file -/
def Files.unlink (fs : Files) (n : Nat) : Files := fun k => if k = n then none else fs k

/-- plan_manager.py:90-99: a complete plan; `none` is the error -/
def Manager.add (m : Manager) (cost : Nat) (unit : Bool) : Option Manager :=
  match m.unit with
  | none => some ⟨m.costs ++ [cost], some unit⟩
  | some u =>
    if u ≠ unit then none
    else
      match m.costs.getLast? with
      | none => none
      | some last => if cost ≥ last then none else some ⟨m.costs ++ [cost], some u⟩

/-- plan_manager.py:75-99: the loop; `none` if it does not end -/
def processLoop (counter : Nat) (incomplete : Bool) (m : Manager) (fs : Files) : Option Outcome :=
  match fs counter with
  | none => some (.ok m fs)
  | some content =>
    if incomplete then some .error
    else
      match parsePlan content with
      | none => processLoop (counter + 1) true m (fs.unlink counter)
      | some (cost, unit) =>
        match m.add cost unit with
        | none => some .error
        | some m => processLoop (counter + 1) incomplete m fs
partial_fixpoint

/-- plan_manager.py:68-99 -/
def processNewPlans (m : Manager) (fs : Files) : Option Outcome := processLoop (m.costs.length + 1) false m fs

/-- plan_manager.py:47-58; `bound` is the bound given by the user -/
def nextBound (m : Manager) (bound : Option Nat) : Option Nat :=
  match m.costs.getLast? with
  | some c => some c
  | none => bound

/-- src/search/plan_manager.cc:43-73: save_plan for a planner run with multiple plan files or in an anytime portfolio, after `previous` plans: the file that is written -/
def fileNumber (previous : Nat) : Nat := previous + 1

end Verif.PlanFiles
