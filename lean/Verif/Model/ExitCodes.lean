/-
Model of driver/returncodes.py.
-/
namespace Verif.Driver

/-- returncodes.py:9-31 -/
def SUCCESS : Int := 0
def SEARCH_PLAN_FOUND_AND_OUT_OF_MEMORY : Int := 1
def SEARCH_PLAN_FOUND_AND_OUT_OF_TIME : Int := 2
def SEARCH_PLAN_FOUND_AND_OUT_OF_MEMORY_AND_TIME : Int := 3
def SEARCH_UNSOLVABLE : Int := 11
def SEARCH_UNSOLVED_INCOMPLETE : Int := 12
def SEARCH_OUT_OF_MEMORY : Int := 22
def SEARCH_OUT_OF_TIME : Int := 23
def SEARCH_OUT_OF_MEMORY_AND_TIME : Int := 24
def SEARCH_CRITICAL_ERROR : Int := 32

/-- returncodes.py:38-40 -/
def isUnrecoverable (c : Int) : Bool := decide (30 ≤ c ∧ c < 40)

/-- the elements of a list in the order of their first occurrence; the order of a Python set does not matter below -/
def toSet : List Int → List Int
  | [] => []
  | c :: cs => c :: (toSet cs).filter (fun d => decide (d ≠ c))

/-- returncodes.py:81-90: at least one plan was found -/
def planFoundCode (cs : List Int) : Int :=
  if SEARCH_OUT_OF_MEMORY ∈ cs ∧ SEARCH_OUT_OF_TIME ∈ cs then SEARCH_PLAN_FOUND_AND_OUT_OF_MEMORY_AND_TIME
  else if SEARCH_OUT_OF_MEMORY ∈ cs then SEARCH_PLAN_FOUND_AND_OUT_OF_MEMORY
  else if SEARCH_OUT_OF_TIME ∈ cs then SEARCH_PLAN_FOUND_AND_OUT_OF_TIME
  else SUCCESS

/-- returncodes.py:92-106: no plan was found; `none` is the failed assertion -/
def noPlanCode (cs : List Int) : Option Int :=
  if SEARCH_UNSOLVABLE ∈ cs then some SEARCH_UNSOLVABLE
  else if SEARCH_UNSOLVED_INCOMPLETE ∈ cs then some SEARCH_UNSOLVED_INCOMPLETE
  else if SEARCH_OUT_OF_MEMORY ∈ cs ∧ SEARCH_OUT_OF_TIME ∈ cs then some SEARCH_OUT_OF_MEMORY_AND_TIME
  else if SEARCH_OUT_OF_MEMORY ∈ cs then some SEARCH_OUT_OF_MEMORY
  else if SEARCH_OUT_OF_TIME ∈ cs then some SEARCH_OUT_OF_TIME
  else none

/-- returncodes.py:58-106: the exit code, and whether the driver continues with validation -/
def portfolioExitcode (codes : List Int) : Option (Int × Bool) :=
  match (toSet codes).filter isUnrecoverable with
  | [c] => some (c, false)
  | _ :: _ :: _ => some (SEARCH_CRITICAL_ERROR, false)
  | [] => if SUCCESS ∈ toSet codes then some (planFoundCode (toSet codes), true) else (noPlanCode (toSet codes)).map (fun c => (c, false))

end Verif.Driver
