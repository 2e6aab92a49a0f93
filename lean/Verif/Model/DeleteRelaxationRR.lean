import Verif.Model.DeleteRelaxationIF

/-
Model of the delete-relaxation constraints by Rankooh and Rintanen for the operator-counting heuristic (src/search/operator_counting/delete_relaxation_rr_constraints.cc).

Simplifications as in Model/DeleteRelaxationIF.lean.  The constraints are the only ones of the heuristic, so the columns for operator counts are the first ones.  Hash sets are lists without duplicates (the order of the columns and rows for edges is not specified).
The queue returns any of its entries (the code: one with the smallest key), which `pick` chooses.
-/
namespace Verif.CountingRR
open Verif.LP Verif.CountingIF
open Verif.Counting hiding Gen

/-! ### Vertex elimination -/

/-- delete_relaxation_rr_constraints.cc:17-32 `VEGraph`; `elim` are the facts that are eliminated (the last one first), `degree` is `in_degree`; the vectors `predecessors` and `successors` of a node are the edges with the node, in the order of insertion -/
structure VE where
  edges : List (Fact × Fact)
  delta : List (Fact × Fact × Fact)
  elim : List Fact
  degree : Fact → Nat
  queue : List (Nat × Fact)

def VE.preds (g : VE) (f : Fact) : List Fact := (g.edges.filter (fun e => e.2 = f)).map (·.1)
def VE.succs (g : VE) (f : Fact) : List Fact := (g.edges.filter (fun e => e.1 = f)).map (·.2)

/-- lines 42-49 -/
def addEdge (es : List (Fact × Fact)) (e : Fact × Fact) : List (Fact × Fact) := if e ∈ es then es else es ++ [e]

/-- lines 51-64 -/
def VE.push (g : VE) (f : Fact) : VE :=
  if f ∈ g.elim then g
  else
    let d := (g.preds f).countP (fun p => p ∉ g.elim)
    { g with degree := fun h => if h = f then d else g.degree h, queue := g.queue ++ [(d, f)] }

/-- lines 84-98: the shortcuts from predecessors to successors that are not eliminated -/
def VE.shortcuts (g : VE) (f : Fact) : List (Fact × Fact × Fact) :=
  ((g.preds f).filter (fun p => p ∉ g.elim)).flatMap (fun p => ((g.succs f).filter (fun q => q ∉ g.elim ∧ p ≠ q)).map (fun q => (p, f, q)))

/-- lines 101-105: a shortcut is added -/
def VE.addShortcut (g : VE) (c : Fact × Fact × Fact) : VE := { g with edges := addEdge g.edges (c.1, c.2.2), delta := if c ∈ g.delta then g.delta else g.delta ++ [c] }

/-- lines 77-118 -/
def VE.eliminate (g : VE) (f : Fact) : VE :=
  let g1 := (g.shortcuts f).foldl VE.addShortcut { g with elim := f :: g.elim }
  (g1.succs f).foldl VE.push g1

/-- lines 125-135: the edges from preconditions to effects -/
def taskEdges (t : Task) : List (Fact × Fact) := t.ops.flatMap (fun o => o.pre.flatMap (fun p => (o.effects.filter (fun e => p ≠ e.fact)).map (fun e => (p, e.fact))))

/-- lines 120-145 `construct_task_graph` and `initialize_queue` -/
def VE.start (t : Task) : VE := (facts t).foldl VE.push ⟨(taskEdges t).foldl addEdge [], [], [], fun _ => 0, []⟩

theorem push_elim (g : VE) (f : Fact) : (g.push f).elim = g.elim := by unfold VE.push; split <;> rfl

theorem foldl_push_elim (l : List Fact) : ∀ g : VE, (l.foldl VE.push g).elim = g.elim := by
  induction l with
  | nil => exact fun _ => rfl
  | cons f l ih => exact fun g => (ih _).trans (push_elim g f)

theorem foldl_shortcut_elim (l : List (Fact × Fact × Fact)) : ∀ g : VE, (l.foldl VE.addShortcut g).elim = g.elim := by
  induction l with
  | nil => exact fun _ => rfl
  | cons f l ih => exact fun g => ih _

theorem eliminate_elim (g : VE) (f : Fact) : (g.eliminate f).elim = f :: g.elim := by
  unfold VE.eliminate
  simp only
  rw [foldl_push_elim, foldl_shortcut_elim]

theorem count_lt {t : Task} {l : List Fact} {f : Fact} (hf : f ∈ facts t) (hn : f ∉ l) : (facts t).countP (fun q => q ∉ f :: l) < (facts t).countP (fun q => q ∉ l) := by
  obtain ⟨a, b, h⟩ := List.append_of_mem hf
  rw [h]
  simp only [List.countP_append, List.countP_cons]
  have h1 : ∀ c : List Fact, c.countP (fun q => q ∉ f :: l) ≤ c.countP (fun q => q ∉ l) := fun c => List.countP_mono_left fun x _ hx => by simp at hx ⊢; exact hx.2
  have h2 := h1 a
  have h3 := h1 b
  simp only [List.mem_cons, true_or, not_true, decide_false, hn, not_false_eq_true, decide_true, Bool.false_eq_true, if_false, if_true] at h2 h3 ⊢
  omega

/-- lines 66-75 and 151-153: entries are taken from the queue until it is empty; facts whose entry is current are eliminated; `none` is an access outside of `nodes` -/
def eliminateAll (t : Task) (pick : List (Nat × Fact) → Nat) (g : VE) : Option VE :=
  match hq : g.queue with
  | [] => some g
  | e0 :: q0 =>
    let i := min (pick g.queue) (g.queue.length - 1)
    let e := (g.queue[i]?).getD e0
    let g1 : VE := { g with queue := g.queue.eraseIdx i }
    if g.degree e.2 = e.1 ∧ e.2 ∉ g.elim then
      if e.2 ∈ facts t then eliminateAll t pick (g1.eliminate e.2) else none
    else eliminateAll t pick g1
termination_by ((facts t).countP (fun q => q ∉ g.elim), g.queue.length)
decreasing_by
  · rw [eliminate_elim]
    exact Prod.Lex.left _ _ (count_lt (by assumption) (And.right (by assumption)))
  · refine Prod.Lex.right _ ?_
    rw [List.length_eraseIdx_of_lt (by rw [hq]; simp only [List.length_cons]; omega), hq]
    simp

/-- lines 148-154 -/
def veGraph (t : Task) (pick : List (Nat × Fact) → Nat) : Option VE := eliminateAll t pick (VE.start t)

/-! ### Columns and rows -/

/-- what the columns stand for: count of an operator, fact reached (f_p), operator is the achiever of a fact (f_{p,a}), fact before another one (e_{i,j}), time of a fact (t_i) -/
inductive Key where
  | count (i : Nat)
  | reached (f : Fact)
  | achiever (i : Nat) (f : Fact)
  | edge (a b : Fact)
  | time (f : Fact)
deriving DecidableEq

/-- delete_relaxation_rr_constraints.h `AcyclicityType` -/
inductive Acyclicity where
  | timeLabels
  | vertexElimination
  | none
deriving DecidableEq

/-- operator_counting_heuristic.cc:22-39, delete_relaxation_rr_constraints.cc:201-283 `create_auxiliary_variables`, `_ve` and `_tl`: the columns in the order in which they are added (if no operator has two effects with the same fact) -/
def keys (t : Task) (ac : Acyclicity) (es : List (Fact × Fact)) : List Key :=
  (List.range t.ops.length).map .count ++ (facts t).map .reached ++ t.ops.zipIdx.flatMap (fun o => o.1.effects.map (fun e => .achiever o.2 e.fact)) ++
    (match ac with | .vertexElimination => es.map (fun e => .edge e.1 e.2) | .timeLabels => (facts t).map .time | .none => [])

/-- operator_counting_heuristic.cc:33-37, and lines 215, 230, 249, 276 and 375-377 -/
def column (t : Task) : Key → Column
  | .count i => ⟨some 0, none, t.opCost i⟩
  | .reached f => ⟨some (if f ∈ t.goal then 1 else 0), some 1, 0⟩
  | .achiever _ _ => ⟨some 0, some 1, 0⟩
  | .edge _ _ => ⟨some 0, some 1, 0⟩
  | .time _ => ⟨some 1, some ((facts t).length : Nat), 0⟩

/-- a row with keys instead of indices -/
structure KeyRow where
  lower : Option Rat
  upper : Option Rat
  terms : List (Key × Rat)

/-- lines 166-187: the indices of the columns -/
def KeyRow.row (ks : List Key) (r : KeyRow) : Row := ⟨r.lower, r.upper, r.terms.map (fun e => (ks.idxOf e.1, e.2))⟩

/-- lines 295-325: constraint (2) for a fact, with both bounds `b` -/
def factRow (t : Task) (b : Rat) (f : Fact) : KeyRow := ⟨some b, some b, (.reached f, 1) :: (achievers t f).map (fun i => (.achiever i f, -1))⟩

/-- the operators with the fact `p` as an effect and the fact `q` as a precondition -/
def supported (t : Task) (q p : Fact) : List Nat := (achievers t p).filter (fun i => match t.ops[i]? with | some o => decide (q ∈ o.pre) | none => false)

/-- lines 341-362: the pairs of preconditions and effects with a constraint (3) -/
def pairs (t : Task) : List (Fact × Fact) := t.ops.flatMap (fun o => o.effects.flatMap (fun e => (o.pre.filter (fun q => q ≠ e.fact)).map (fun q => (q, e.fact))))

/-- lines 353-359: constraint (3) for a precondition and an effect (if no operator has a precondition twice) -/
def supportRow (t : Task) (c : Fact × Fact) : KeyRow := ⟨some 0, some 1, (.reached c.1, 1) :: (supported t c.1 c.2).map (fun i => (.achiever i c.2, -1))⟩

/-- lines 390-398: constraint (5) -/
def countRow (i : Nat) (f : Fact) : KeyRow := ⟨some 0, none, [(.achiever i f, -1), (.count i, 1)]⟩

/-- lines 417-428: constraint (6) -/
def orderRow (i : Nat) (q p : Fact) : KeyRow := ⟨some 0, none, [(.edge q p, 1), (.achiever i p, -1)]⟩

/-- lines 440-449: constraint (7) -/
def cycleRow (e : Fact × Fact) : KeyRow := ⟨none, some 1, [(.edge e.1 e.2, 1), (.edge e.2 e.1, 1)]⟩

/-- lines 461-467: constraint (8) -/
def shortcutRow (c : Fact × Fact × Fact) : KeyRow := ⟨none, some 1, [(.edge c.1 c.2.1, 1), (.edge c.2.1 c.2.2, 1), (.edge c.1 c.2.2, -1)]⟩

/-- lines 501-505: constraint (9) -/
def timeRow (t : Task) (i : Nat) (q p : Fact) : KeyRow := ⟨none, some (((facts t).length : Nat) - 1), [(.time q, 1), (.time p, -1), (.achiever i p, ((facts t).length : Nat))]⟩

/-- the operators with a precondition and an effect: the loops of lines 417-420 and 492-496 -/
def triples (t : Task) : List (Nat × Fact × Fact) := t.ops.zipIdx.flatMap (fun o => o.1.pre.flatMap (fun q => o.1.effects.map (fun e => (o.2, q, e.fact))))

/-- lines 327-509: the rows after those for facts -/
def otherRows (t : Task) (ac : Acyclicity) (es : List (Fact × Fact)) (ds : List (Fact × Fact × Fact)) : List KeyRow :=
  (pairs t).dedup.map (supportRow t) ++ t.ops.zipIdx.flatMap (fun o => o.1.effects.map (fun e => countRow o.2 e.fact)) ++
    (match ac with
    | .vertexElimination => (triples t).map (fun c => orderRow c.1 c.2.1 c.2.2) ++ (es.filter (fun e => (e.2, e.1) ∈ es)).map cycleRow ++ ds.map shortcutRow
    | .timeLabels => ((triples t).filter (fun c => c.2.1 ≠ c.2.2)).map (fun c => timeRow t c.1 c.2.1 c.2.2)
    | .none => [])

/-- all rows, with the bounds `b` of the rows for facts -/
def rows (t : Task) (ac : Acyclicity) (es : List (Fact × Fact)) (ds : List (Fact × Fact × Fact)) (b : Fact → Rat) : List Row :=
  ((facts t).map (fun f => factRow t (b f) f) ++ otherRows t ac es ds).map (KeyRow.row (keys t ac es))

/-- lines 511-538 `initialize_constraints`, and operator_counting_heuristic.cc:15-41; `none` is exit with an error: integer variables with SoPlex (soplex_solver_interface.cc:63-68), or the exception of line 177, if an edge from a precondition to an effect is not in the graph -/
def create (t : Task) (kind : SolverType) (ac : Acyclicity) (pick : List (Nat × Fact) → Nat) (intCounts intVars : Bool) : Option (Gen × Solver) :=
  let graph : Option (List (Fact × Fact) × List (Fact × Fact × Fact)) :=
    match ac with
    | .vertexElimination =>
      match veGraph t pick with
      | some g => if (triples t).all (fun c => (c.2.1, c.2.2) ∈ g.edges) then some (g.edges, g.delta) else none
      | none => none
    | _ => some ([], [])
  match graph with
  | none => none
  | some (es, ds) =>
    if kind = .soplex ∧ (List.range (keys t ac es).length).any (integral t intCounts intVars) = true then none
    else some (⟨0, []⟩, Solver.load kind ((keys t ac es).map (column t)) (rows t ac es ds (fun _ => 0)))

/-- `set_constraint_upper_bound` -/
def setUpper (S : Solver) (i : Nat) (b : Rat) : Option Solver :=
  match S.rows[i]? with
  | none => none
  | some r => some { S with rows := S.rows.set i { r with upper := some b } }

/-- lines 197-199, 544-548 and 551-554: both bounds of the rows for several facts; `none` is an access outside of the tables -/
def setBounds (t : Task) (first : Nat) (b : Rat) : List Fact → Solver → Option Solver
  | [], S => some S
  | f :: fs, S =>
    if f ∈ facts t then
      match S.setLower (first + (facts t).idxOf f) b with
      | none => none
      | some S =>
        match setUpper S (first + (facts t).idxOf f) b with
        | none => none
        | some S => setBounds t first b fs S
    else none

/-- lines 540-558 `update_constraints`: the bounds of the last state are reset, then those of the new state are set -/
def update (t : Task) (s : State) (g : Gen) (S : Solver) : Option (Gen × Solver) :=
  match setBounds t g.first 0 g.last S with
  | none => none
  | some S =>
    match setBounds t g.first 1 (stateFacts s) S with
    | none => none
    | some S => some ({ g with last := stateFacts s }, S)

/-- operator_counting_heuristic.cc:43-65 `compute_heuristic`; `none` as value is DEAD_END -/
def compute (t : Task) (solve : Program → (Nat → Bool) → Option Rat) (intCounts intVars : Bool) (s : State) (obj : Gen × Solver) : Option (Option Int × (Gen × Solver)) :=
  if obj.2.hasTemporary then none
  else
    match update t s obj.1 obj.2 with
    | none => none
    | some (g, S) =>
      match solve S.program (integral t intCounts intVars) with
      | none => some (none, (g, S.clearTemporary))
      | some v => if ⌈v - 1 / 100⌉ ≤ 2147483647 ∧ -2147483648 ≤ ⌈v - 1 / 100⌉ then some (some ⌈v - 1 / 100⌉, (g, S.clearTemporary)) else none

/-- the states that have been evaluated before -/
def computeAll (t : Task) (solve : Program → (Nat → Bool) → Option Rat) (intCounts intVars : Bool) : List State → Gen × Solver → Option (Gen × Solver)
  | [], obj => some obj
  | s :: ss, obj =>
    match compute t solve intCounts intVars s obj with
    | none => none
    | some (_, obj) => computeAll t solve intCounts intVars ss obj

end Verif.CountingRR
