import Verif.Model.MergeStrategies
import Verif.Spec.SearchCausalGraph

/-
Specification of merge strategies: what happens to the factors when a strategy is asked for the next merge again and again.
-/
namespace Verif.Mas

/-- the active factors: the index of each one, and the variables that have been merged into it -/
abbrev View := List (Nat × List Nat)

/-- in the beginning there is one factor for every one of the `n` variables -/
def View.start (n : Nat) : View := (List.range n).map (fun v => (v, [v]))

/-- the variables in the factor with index `i` -/
def View.vars (A : View) (i : Nat) : List Nat := (A.filter (fun f => f.1 == i)).flatMap (·.2)

/-- two factors are replaced by a new one -/
def View.merge (A : View) (new : Nat) (p : Nat × Nat) : View :=
  A.filter (fun f => decide (f.1 ≠ p.1 ∧ f.1 ≠ p.2)) ++ [(new, A.vars p.1 ++ A.vars p.2)]

/-- the factored transition system has had `size` factors so far, and exactly the factors of the view are active -/
def View.Shows (A : View) (F : FTS) (size : Nat) : Prop := F.factors.length = size ∧ ∀ i, F.active i = true ↔ i ∈ A.map (·.1)

/-- `k` merges chosen by the strategy lead from the `n` atomic factors to the view and the state of the strategy, where the factored transition systems
the strategy looked at are arbitrary ones with these active factors that satisfy `Good`.  It is only asked for a merge if there are at least two factors. -/
inductive Calls {σ : Type} (next : σ → FTS → Chosen ((Nat × Nat) × σ)) (st₀ : σ) (n : Nat) (Good : FTS → Prop) : Nat → σ → View → Prop where
  | start : Calls next st₀ n Good 0 st₀ (View.start n)
  | step (k : Nat) (st st' : σ) (A : View) (F : FTS) (p : Nat × Nat) (h : Calls next st₀ n Good k st A) (h2 : 2 ≤ A.length)
      (hF : A.Shows F (n + k)) (hG : Good F) (hn : next st F = .ok (p, st')) : Calls next st₀ n Good (k + 1) st' (A.merge (n + k) p)

/-- the strategy never fails: whenever at least two factors are left, it returns two different active factors -/
def AlwaysMerges {σ : Type} (next : σ → FTS → Chosen ((Nat × Nat) × σ)) (st₀ : σ) (n : Nat) (Good : FTS → Prop) : Prop :=
  ∀ (k : Nat) (st : σ) (A : View) (F : FTS), Calls next st₀ n Good k st A → 2 ≤ A.length → A.Shows F (n + k) → Good F →
    ∃ (p : Nat × Nat) (st' : σ), next st F = .ok (p, st') ∧ p.1 ≠ p.2 ∧ p.1 ∈ A.map (·.1) ∧ p.2 ∈ A.map (·.1)

/-- after `k` merges there are `n - k` factors with different numbers, and every variable belongs to exactly one of them -/
structure ViewOK (n k : Nat) (A : View) : Prop where
  nodup : (A.map (·.1)).Nodup
  lt : ∀ f ∈ A, f.1 < n + k
  len : A.length + k = n
  perm : (A.flatMap (·.2)).Perm (List.range n)

/-- the indices in a merge tree -/
def MergeTree.leaves : MergeTree → List Nat
  | .leaf i => [i]
  | .node l r => l.leaves ++ r.leaves

/-! ### scoring functions -/

/-- possible candidates: pairs of different active factors, no pair twice and no pair in both directions -/
structure Candidates (F : FTS) (cands : List (Nat × Nat)) : Prop where
  ne : cands ≠ []
  nodup : cands.Nodup
  active : ∀ c ∈ cands, c.1 ≠ c.2 ∧ F.active c.1 = true ∧ F.active c.2 = true
  oneWay : ∀ c ∈ cands, (c.2, c.1) ∉ cands

/-- for tasks with `n` variables, the scoring function returns a score of at most INF for every candidate -/
def Scoring.Scores (f : Scoring) (n : Nat) (Good : FTS → Prop) : Prop :=
  ∀ (F : FTS) (cands : List (Nat × Nat)), F.factors.length < 2 * n → Good F → Candidates F cands →
    ∃ scores, f F cands = some scores ∧ scores.length = cands.length ∧ ∀ s ∈ scores, s ≤ (inf : ℚ)

/-- moreover, one candidate gets a smaller score than all others -/
def Scoring.BreaksTies (f : Scoring) (n : Nat) (Good : FTS → Prop) : Prop :=
  ∀ (F : FTS) (cands : List (Nat × Nat)), F.factors.length < 2 * n → Good F → Candidates F cands →
    ∃ scores, f F cands = some scores ∧ ∃ (i : Nat) (s : ℚ), scores[i]? = some s ∧ ∀ (j : Nat) (s' : ℚ), j ≠ i → scores[j]? = some s' → s < s'

/-- what the DFP scoring function needs: goal distances for the targets of all transitions; every label belongs to at most one group -/
def DfpReady (F : FTS) : Prop := ∀ (i : Nat) (f : Factor), F.factor i = some f →
  (∃ h, f.dist.goal = some h ∧ ∀ g ∈ f.ts.infos, ∀ tr ∈ g.transitions, tr.2 < h.length)
    ∧ (f.ts.infos.flatMap (·.labels)).Nodup ∧ (∀ g ∈ f.ts.infos, ∀ l ∈ g.labels, l < F.labels.costs.length) ∧ ∀ g ∈ f.ts.infos, g.transitions.Nodup

/-- the label is not relevant for the factor: its transitions are exactly the self-loops of all states; a label that does not occur has no effect either -/
def Irrelevant (f : Factor) (l : Nat) : Prop :=
  ∀ g ∈ f.ts.infos, l ∈ g.labels → g.transitions.length = f.ts.size ∧ ∀ tr ∈ g.transitions, tr.2 = tr.1

/-- `r` is the least goal distance of a target of a transition with the label, or INF if there is none -/
def IsRank (f : Factor) (l r : Nat) : Prop := ∃ h g, f.dist.goal = some h ∧ g ∈ f.ts.infos ∧ l ∈ g.labels ∧
  (r = inf ∨ ∃ tr ∈ g.transitions, h[tr.2]? = some r) ∧ r ≤ inf ∧ ∀ tr ∈ g.transitions, ∀ d, h[tr.2]? = some d → r ≤ d

/-- the meaning of the options of the total order: the list of the atomic factors `0, …, n - 1` and the products `n, …, 2n - 2` -/
def TotalOrderOf (n : Nat) (ao : AtomicOrder) (po : ProductOrder) (atomicFirst : Bool) (l : List Nat) : Prop :=
  ∃ a p, l = (if atomicFirst then a ++ p else p ++ a) ∧ a.Perm (List.range n) ∧ p.Perm (List.range' n (n - 1))
    ∧ (ao = .level → a.Pairwise (· > ·)) ∧ (ao = .reverseLevel → a.Pairwise (· < ·)) ∧ (po = .newToOld → p.Pairwise (· > ·)) ∧ (po = .oldToNew → p.Pairwise (· < ·))

/-- the pair `(a, b)` comes before `(c, d)`, given that the first element of each pair comes before the second one in the list: compare the first elements, then the second ones -/
def PairBefore (l : List Nat) (p q : Nat × Nat) : Prop := l.idxOf p.1 < l.idxOf q.1 ∨ (p.1 = q.1 ∧ l.idxOf p.2 < l.idxOf q.2)

/-- the pair in the order of the list -/
def sortPair (l : List Nat) (p : Nat × Nat) : Nat × Nat := if l.idxOf p.1 ≤ l.idxOf p.2 then p else (p.2, p.1)

/-! ### strongly connected components -/

/-- there is an arc from `u` to `v` in the causal graph -/
def Arc (t : Task) (u v : Nat) : Prop := t.PreEff u v ∨ t.EffEff u v

/-- can both variables be reached from each other in the causal graph? -/
def SameScc (t : Task) (u v : Nat) : Prop := Relation.ReflTransGen (Arc t) u v ∧ Relation.ReflTransGen (Arc t) v u

/-- the list consists of the strongly connected components with at least two variables -/
structure BigSccs (t : Task) (L : List (List Nat)) : Prop where
  big : ∀ c ∈ L, 2 ≤ c.length
  scc : ∀ c ∈ L, ∀ v ∈ c, ∀ w, w ∈ c ↔ SameScc t v w
  all : ∀ u w, u ≠ w → SameScc t u w → ∃ c ∈ L, u ∈ c
  once : L.flatten.Nodup

/-- the meaning of the option order_of_sccs -/
def SccOrder.Ordered (t : Task) (L : List (List Nat)) : SccOrder → Prop
  | .topological => L.Pairwise (fun a b => ∀ u ∈ b, ∀ w ∈ a, ¬ Arc t u w)
  | .reverseTopological => L.Pairwise (fun a b => ∀ u ∈ a, ∀ w ∈ b, ¬ Arc t u w)
  | .decreasing => L.Pairwise (fun a b => b.length ≤ a.length)
  | .increasing => L.Pairwise (fun a b => a.length ≤ b.length)

/-- the components are merged one after the other in the order of the list: some have been merged completely, one is being merged, the others have not been touched -/
def OneAfterTheOther (L : List (List Nat)) (A : View) : Prop := ∃ done rest, L = done ++ rest ∧ (∀ c ∈ done, ∃ f ∈ A, ∀ v ∈ c, v ∈ f.2) ∧ ∀ c ∈ rest.tail, ∀ v ∈ c, (v, [v]) ∈ A

/-- no factor combines variables of different components, or every factor is a union of complete components -/
def SccsFirst (t : Task) (A : View) : Prop := (∀ f ∈ A, ∀ u ∈ f.2, ∀ w ∈ f.2, SameScc t u w) ∨ ∀ f ∈ A, ∀ u ∈ f.2, ∀ w, SameScc t u w → w ∈ f.2

end Verif.Mas
