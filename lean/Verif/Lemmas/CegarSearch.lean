import Verif.Model.Cegar
import Verif.Lemmas.CartDist

/-
The A* search in Cartesian abstractions.
-/
namespace Verif.Cart
open Verif.AdaptiveQueue Verif.Dijkstra Verif.Relax Verif.LmCut

/-- transitions of finite cost -/
def FiniteOut (out : Nat → List Trans) (costs : List Nat) : Nat → Nat → Nat → Prop := fun i op j => (⟨op, j⟩ : Trans) ∈ out i ∧ costAt costs op < infinite

/-- the abstract transition system and the costs -/
structure GOk (n : Nat) (out : Nat → List Trans) (costs : List Nat) (goals : List Nat) (init C : Nat) : Prop where
  range : ∀ i op j, (⟨op, j⟩ : Trans) ∈ out i → i < n ∧ j < n ∧ op < costs.length
  goals : ∀ i ∈ goals, i < n
  init : init < n
  le : ∀ c ∈ costs, c ≤ infinite
  bounded : Bounded costs C

variable {n init C B : Nat} {out : Nat → List Trans} {costs goals : List Nat} {h : Nat → Nat}

theorem GOk.cost (hG : GOk n out costs goals init C) {op : Nat} (ho : op < costs.length) (hc : costAt costs op < infinite) : costAt costs op ≤ C := by
  unfold costAt at *
  rw [List.getElem?_eq_getElem ho] at *
  exact hG.bounded _ (List.getElem_mem ho) hc

theorem GOk.graph (hG : GOk n out costs goals init C) (hb : n * C < infinite) : GraphOk n (fun v => v = init) (edgesOf out costs) C := by
  have key : ∀ v p c, (p, c) ∈ edgesOf out costs v → 0 ≤ p ∧ p < n ∧ c ≤ C := by
    intro v p c h
    have h0 := h
    unfold edgesOf at h0
    obtain ⟨tr, h1, h2⟩ := List.mem_map.mp (List.mem_filter.mp h0).1
    simp only [Prod.mk.injEq] at h2
    obtain ⟨r1, r2, r3⟩ := hG.range v tr.op tr.target h1
    rw [← h2.1] at h
    obtain ⟨op, k1, k2, k3⟩ := mem_edgesOf.mp h
    obtain ⟨_, _, r4⟩ := hG.range v op _ k1
    refine ⟨by omega, by omega, ?_⟩
    have hm : c ∈ costs := by
      rw [k2, List.getElem?_eq_getElem r4]; exact List.getElem_mem r4
    exact hG.bounded c hm (Nat.lt_of_le_of_ne (hG.le c hm) k3)
  exact ⟨fun v hv => hv ▸ hG.init, fun v p c _ h => ⟨(key v p c h).1, (key v p c h).2.1⟩, fun v p c h => (key v p c h).2.2, hb⟩

/-- the invariant of the search; the transitions `trs` of the state `s` remain to be treated -/
structure AInv (n : Nat) (out : Nat → List Trans) (costs goals : List Nat) (init : Nat) (h : Nat → Nat) (s : Nat) (trs : List Trans) (bag : List (Entry Nat)) (st : SSt) : Prop where
  rep : Rep st.queue bag
  entry : ∀ k v, (k, v) ∈ bag → v < n ∧ st.g v + h v ≤ k ∧ st.g v < infinite ∧ k < 2 ^ 31
  src : st.g init = 0
  le : ∀ v, st.g v ≤ infinite
  tree : ∀ v, v < n → st.g v < infinite → ∃ vs, Tree (fun v => v = init) (edgesOf out costs) st.g (v :: vs) (st.g v)
  close : ∀ v, v < n → st.g v < infinite → (st.g v + h v, v) ∈ bag ∨ (v ∉ goals ∧ ∀ op p, (⟨op, p⟩ : Trans) ∈ out v → costAt costs op < infinite → (v = s ∧ (⟨op, p⟩ : Trans) ∈ trs) ∨ st.g p ≤ st.g v + costAt costs op)
  par : ∀ v p, st.parent v = some p → p.target < n ∧ p.target ∉ goals ∧ (⟨p.op, v⟩ : Trans) ∈ out p.target ∧ costAt costs p.op < infinite ∧ st.g p.target + costAt costs p.op ≤ st.g v
  reached : ∀ v, v < n → st.g v < infinite → v ≠ init → st.parent v ≠ none
  stamp : ∃ (stamp : Nat → Nat) (now : Nat), (∀ v, stamp v ≤ now) ∧ ∀ v p, st.parent v = some p → st.g p.target < st.g v ∨ stamp p.target < stamp v

def amsr (n : Nat) (bag : List (Entry Nat)) (st : SSt) : Nat := 2 * sumN n st.g + bag.length

theorem AInv.bound (hG : GOk n out costs goals init C) (hb : n * C < infinite) {s : Nat} {trs : List Trans} {bag : List (Entry Nat)} {st : SSt} (hi : AInv n out costs goals init h s trs bag st) {v : Nat} (hv : v < n) (hf : st.g v < infinite) : st.g v + C ≤ n * C := by
  obtain ⟨vs, ht⟩ := hi.tree v hv hf
  have hg := hG.graph hb
  have hlen : (v :: vs).length ≤ n := length_le_of_lt ht.nodup (ht.range hg.src hg.range)
  exact Nat.le_trans (ht.bound hg.cost) (Nat.mul_le_mul_right _ hlen)

theorem expand_spec (H : StdHeap Nat) (hG : GOk n out costs goals init C) (hh : ∀ i, h i ≤ B) (hB : n * C + B < infinite) {s : Nat} (hs : s < n) (hng : s ∉ goals) : ∀ (trs : List Trans) (bag : List (Entry Nat)) (st : SSt), (∀ tr ∈ trs, tr ∈ out s) →
    st.g s < infinite → AInv n out costs goals init h s trs bag st →
    ∃ st' bag', expand H n costs h s (st.g s) trs st = some st' ∧ AInv n out costs goals init h s [] bag' st' ∧ amsr n bag' st' ≤ amsr n bag st
  | [], bag, st, _, _, hi => ⟨st, bag, rfl, hi, Nat.le_refl _⟩
  | ⟨op, P⟩ :: trs, bag, st, htrs, hfin, hi => by
    have hin := htrs ⟨op, P⟩ (by simp)
    have htrs' : ∀ e ∈ trs, e ∈ out s := fun e he => htrs e (by simp [he])
    obtain ⟨_, hP, ho⟩ := hG.range s op P hin
    have hb : n * C < infinite := by omega
    have hbs := hi.bound hG hb hs hfin
    have hcost : costAt costs op = costs[op] := by unfold costAt; rw [List.getElem?_eq_getElem ho]; rfl
    have hinf : infinite = 2 ^ 31 - 1 := rfl
    unfold expand
    simp only [List.getElem?_eq_getElem ho]
    rw [if_pos hP]
    by_cases hc : costs[op] = infinite
    · rw [if_pos hc]
      refine expand_spec H hG hh hB hs hng trs bag st htrs' hfin ⟨hi.rep, hi.entry, hi.src, hi.le, hi.tree, ?_, hi.par, hi.reached, hi.stamp⟩
      intro v hv hf
      refine (hi.close v hv hf).imp id (fun ⟨a1, a2⟩ => ⟨a1, fun op' p' h1 h2 => ?_⟩)
      rcases a2 op' p' h1 h2 with ⟨b1, b2⟩ | b
      · rcases List.mem_cons.mp b2 with b2 | b2
        · simp only [Trans.mk.injEq] at b2
          rw [b2.1, hcost] at h2
          omega
        · exact Or.inl ⟨b1, b2⟩
      · exact Or.inr b
    · rw [if_neg hc]
      have hcl : costs[op] < infinite := Nat.lt_of_le_of_ne (hG.le _ (List.getElem_mem ho)) hc
      have hcC : costs[op] ≤ C := hG.bounded _ (List.getElem_mem ho) hcl
      rw [if_pos (by omega)]
      by_cases hlt : st.g s + costs[op] < st.g P
      · rw [if_pos hlt]
        have hhP := hh P
        rw [if_neg (by omega), if_pos (by omega)]
        obtain ⟨q, k1, k2⟩ := hi.rep.push H (st.g s + costs[op] + h P) P
        rw [k1]
        simp only
        generalize hnew : st.g s + costs[op] = new at *
        have hle : ∀ v, upd st.g P new v ≤ st.g v := by
          intro v
          simp only [upd]
          split
          · rename_i e; subst e; omega
          · exact Nat.le_refl _
        have hsP : s ≠ P := fun e => by subst e; omega
        have hds : upd st.g P new s = st.g s := by simp only [upd, if_neg hsP]
        have hne : ∀ v, v ≠ P → upd st.g P new v = st.g v := fun v hv => by simp only [upd, if_neg hv]
        have hPP : upd st.g P new P = new := by simp [upd]
        have hPi : P ≠ init := fun e => by rw [e, hi.src] at hlt; omega
        have h1 : AInv n out costs goals init h s trs ((new + h P, P) :: bag) ⟨upd st.g P new, upd st.parent P (some ⟨op, s⟩), q⟩ := by
          refine ⟨k2, ?_, ?_, ?_, ?_, ?_, ?_, ?_, ?_⟩
          · intro k v hkv
            rcases List.mem_cons.mp hkv with e | e
            · simp only [Prod.mk.injEq] at e
              obtain ⟨rfl, rfl⟩ := e
              exact ⟨hP, by simp only [hPP]; exact Nat.le_refl _, by simp only [hPP]; omega, by omega⟩
            · obtain ⟨a1, a2, a3, a4⟩ := hi.entry k v e
              have := hle v
              exact ⟨a1, by simp only; omega, by simp only; omega, a4⟩
          · have h2 := hi.src
            have h3 := hle init
            show upd st.g P new init = 0
            omega
          · exact fun v => Nat.le_trans (hle v) (hi.le v)
          · intro v hv hfv
            obtain ⟨vs, ht⟩ := hi.tree s hs hfin
            by_cases e : v = P
            · subst e
              refine ⟨s :: vs, ?_⟩
              show Tree _ _ _ _ (upd st.g v new v)
              rw [hPP, ← hnew]
              refine .edge s vs (st.g s) v (costs[op]) (by rw [hnew]; exact ht.mono hle) (mem_edgesOf.mpr ⟨op, hin, by rw [List.getElem?_eq_getElem ho]; rfl, hc⟩) (by rw [hnew]; show upd st.g v new v ≤ new; rw [hPP]) ?_
              intro hin'
              have := ht.le v hin'
              omega
            · obtain ⟨ws, hw⟩ := hi.tree v hv (by simpa [hne v e] using hfv)
              refine ⟨ws, ?_⟩
              show Tree _ _ _ _ (upd st.g P new v)
              rw [hne v e]
              exact hw.mono hle
          · intro v hv hfv
            show (upd st.g P new v + h v, v) ∈ _ ∨ (_ ∧ ∀ op' p', _ → _ → _ ∨ upd st.g P new p' ≤ upd st.g P new v + _)
            by_cases e : v = P
            · subst e; left; rw [hPP]; simp
            · rw [hne v e]
              rcases hi.close v hv (by simpa [hne v e] using hfv) with a | ⟨a0, a⟩
              · exact Or.inl (List.mem_cons_of_mem _ a)
              · right
                refine ⟨a0, fun op' p' h1 h2 => ?_⟩
                rcases a op' p' h1 h2 with ⟨b1, b2⟩ | b
                · rcases List.mem_cons.mp b2 with b2 | b2
                  · simp only [Trans.mk.injEq] at b2
                    obtain ⟨rfl, rfl⟩ := b2
                    right; rw [hPP, b1, hcost]; omega
                  · exact Or.inl ⟨b1, b2⟩
                · exact Or.inr (Nat.le_trans (hle p') b)
          · intro v p hp
            by_cases e : v = P
            · subst e
              simp only [upd, if_true, Option.some.injEq] at hp
              subst hp
              refine ⟨hs, hng, hin, by rw [hcost]; exact hcl, ?_⟩
              show upd st.g v new s + costAt costs op ≤ upd st.g v new v
              rw [hPP, hds, hcost, hnew]
            · simp only [upd, if_neg e] at hp
              obtain ⟨b1, b2, b3, b4, b5⟩ := hi.par v p hp
              refine ⟨b1, b2, b3, b4, ?_⟩
              show upd st.g P new p.target + _ ≤ upd st.g P new v
              rw [hne v e]
              have := hle p.target
              omega
          · intro v hv hfv hvi
            by_cases e : v = P
            · subst e; simp [upd]
            · simp only [upd, if_neg e]
              exact hi.reached v hv (by simpa [hne v e] using hfv) hvi
          · obtain ⟨stamp, now, t1, t2⟩ := hi.stamp
            refine ⟨upd stamp P (now + 1), now + 1, fun v => ?_, fun v p hp => ?_⟩
            · simp only [upd]
              split
              · exact Nat.le_refl _
              · have := t1 v; omega
            · show upd st.g P new p.target < upd st.g P new v ∨ _
              by_cases e : v = P
              · subst e
                simp only [upd, if_true, Option.some.injEq] at hp
                subst hp
                right
                show upd stamp v (now + 1) s < upd stamp v (now + 1) v
                simp only [upd, if_neg hsP, if_true]
                have := t1 s
                omega
              · simp only [upd, if_neg e] at hp
                rw [hne v e]
                by_cases e2 : p.target = P
                · left
                  rw [e2, hPP]
                  have h5 := (hi.par v p hp).2.2.2.2
                  rw [e2] at h5
                  omega
                · rw [hne _ e2]
                  simp only [upd, if_neg e, if_neg e2]
                  exact t2 v p hp
        obtain ⟨st', bag', j1, j2, j3⟩ := expand_spec H hG hh hB hs hng trs _ ⟨upd st.g P new, upd st.parent P (some ⟨op, s⟩), q⟩ htrs' (by show upd st.g P _ s < infinite; rw [hds]; exact hfin) h1
        simp only [hds] at j1
        refine ⟨st', bag', j1, j2, Nat.le_trans j3 ?_⟩
        have hsum := sumN_upd hP st.g new
        simp only [amsr, List.length_cons]
        omega
      · rw [if_neg hlt]
        refine expand_spec H hG hh hB hs hng trs bag st htrs' hfin ⟨hi.rep, hi.entry, hi.src, hi.le, hi.tree, ?_, hi.par, hi.reached, hi.stamp⟩
        intro v hv hf
        refine (hi.close v hv hf).imp id (fun ⟨a1, a2⟩ => ⟨a1, fun op' p' h1 h2 => ?_⟩)
        rcases a2 op' p' h1 h2 with ⟨b1, b2⟩ | b
        · rcases List.mem_cons.mp b2 with b2 | b2
          · simp only [Trans.mk.injEq] at b2
            obtain ⟨rfl, rfl⟩ := b2
            right; rw [b1, hcost]; omega
          · exact Or.inl ⟨b1, b2⟩
        · exact Or.inr b

/-- goal distances of the abstraction, by transitions of finite cost -/
abbrev FGoal (out : Nat → List Trans) (costs goals : List Nat) : Nat → Nat → Prop := GoalCost (FiniteOut out costs) (fun i => i ∈ goals) (costAt costs)

/-- the values are lower bounds on the goal distances -/
def HAdm (out : Nat → List Trans) (costs goals : List Nat) (h : Nat → Nat) : Prop := ∀ i k, FGoal out costs goals i k → h i ≤ k

/-- every path to a goal meets the queue -/
theorem AInv.front (hG : GOk n out costs goals init C) (hb : n * C < infinite) {s : Nat} {bag : List (Entry Nat)} {st : SSt} (hi : AInv n out costs goals init h s [] bag st) {i k : Nat} (hk : FGoal out costs goals i k) :
    i < n → st.g i < infinite → ∃ f v, (f, v) ∈ bag ∧ (HAdm out costs goals h → f ≤ st.g i + k) := by
  induction hk with
  | goal i hg =>
    intro hl hf
    rcases hi.close i hl hf with a | ⟨a, _⟩
    · exact ⟨_, _, a, fun had => by have := had i 0 (.goal i hg); omega⟩
    · exact absurd hg a
  | step i op j k he hj ih =>
    intro hl hf
    rcases hi.close i hl hf with a | ⟨_, a⟩
    · exact ⟨_, _, a, fun had => by have := had i _ (.step i op j k he hj); omega⟩
    · rcases a op j he.1 he.2 with b | b
      · simp at b
      · obtain ⟨r1, r2, r3⟩ := hG.range i op j he.1
        have h1 := hi.bound hG hb hl hf
        have h2 := hG.cost r3 he.2
        obtain ⟨f, v, m1, m2⟩ := ih r2 (by omega)
        exact ⟨f, v, m1, fun had => by have := m2 had; omega⟩

/-- what is known when the search ends with the goal `s` -/
structure AFin (n : Nat) (out : Nat → List Trans) (costs goals : List Nat) (init C : Nat) (h : Nat → Nat) (s : Nat) (st : SSt) : Prop where
  rep : ∃ bag, Rep st.queue bag
  goal : s ∈ goals
  lt : s < n
  fin : st.g s < infinite
  src : st.g init = 0
  bound : ∀ v, v < n → st.g v < infinite → st.g v + C ≤ n * C
  par : ∀ v p, st.parent v = some p → p.target < n ∧ p.target ∉ goals ∧ (⟨p.op, v⟩ : Trans) ∈ out p.target ∧ costAt costs p.op < infinite ∧ st.g p.target + costAt costs p.op ≤ st.g v
  reached : ∀ v, v < n → st.g v < infinite → v ≠ init → st.parent v ≠ none
  stamp : ∃ (stamp : Nat → Nat) (now : Nat), (∀ v, stamp v ≤ now) ∧ ∀ v p, st.parent v = some p → st.g p.target < st.g v ∨ stamp p.target < stamp v
  opt : HAdm out costs goals h → ∀ i k, i < n → st.g i < infinite → FGoal out costs goals i k → st.g s + h s ≤ st.g i + k

theorem astar_spec (H : StdHeap Nat) (hG : GOk n out costs goals init C) (hh : ∀ i, h i ≤ B) (hB : n * C + B < infinite) : ∀ (m s : Nat) (bag : List (Entry Nat)) (st : SSt), amsr n bag st = m → AInv n out costs goals init h s [] bag st →
    ∃ r st', astar H n costs h out goals st = some (r, st') ∧ (r = none → (∃ bag, Rep st'.queue bag) ∧ ∀ k, ¬FGoal out costs goals init k) ∧ ∀ s, r = some s → AFin n out costs goals init C h s st' := by
  intro m
  have hb : n * C < infinite := by omega
  induction m using Nat.strong_induction_on with
  | _ m ih =>
    intro s bag st hm hi
    rw [astar]
    by_cases he : st.queue.empty = true
    · rw [if_pos he]
      have hbag := hi.rep.empty.mp he
      subst hbag
      refine ⟨none, st, rfl, fun _ => ⟨⟨_, hi.rep⟩, fun k hk => ?_⟩, by simp⟩
      obtain ⟨f, v, m1, _⟩ := hi.front hG hb hk hG.init (by rw [hi.src]; omega)
      simp at m1
    · rw [if_neg he]
      have hne : bag ≠ [] := fun e => he (hi.rep.empty.mpr e)
      obtain ⟨q, k, v, bag', h1, h2, h3, h4⟩ := hi.rep.pop H hne
      have hin : (k, v) ∈ bag := h2.symm.subset (by simp)
      obtain ⟨hv, hle, hfin, hk⟩ := hi.entry k v hin
      have hlen := h2.length_eq
      simp only [List.length_cons] at hlen
      rw [h1]
      simp only
      rw [if_pos (by omega)]
      by_cases hgt : st.g v + h v < k
      · rw [if_pos hgt]
        have h5 : AInv n out costs goals init h s [] bag' { st with queue := q } := by
          refine ⟨h4, fun a b hab => hi.entry a b (h2.symm.subset (List.mem_cons_of_mem _ hab)), hi.src, hi.le, hi.tree, ?_, hi.par, hi.reached, hi.stamp⟩
          intro u hu hfu
          rcases hi.close u hu hfu with a | a
          · left
            rcases List.mem_cons.mp (h2.subset a) with e | e
            · simp only [Prod.mk.injEq] at e
              obtain ⟨e1, rfl⟩ := e
              omega
            · exact e
          · exact Or.inr a
        exact ih (amsr n bag' { st with queue := q }) (by simp only [amsr] at hm ⊢; omega) s bag' _ rfl h5
      · rw [if_neg hgt]
        have hkd : st.g v + h v = k := by omega
        by_cases hgoal : v ∈ goals
        · rw [if_pos hgoal]
          refine ⟨some v, _, rfl, by simp, fun s' hs' => ?_⟩
          simp only [Option.some.injEq] at hs'
          subst hs'
          refine ⟨⟨_, h4⟩, hgoal, hv, hfin, hi.src, fun u hu hfu => hi.bound hG hb hu hfu, hi.par, hi.reached, hi.stamp, fun had i k' hl hf hk' => ?_⟩
          obtain ⟨f, u, m1, m2⟩ := hi.front hG hb hk' hl hf
          have a1 := m2 had
          have a2 := h3 _ m1
          simp only at a2
          show st.g v + h v ≤ st.g i + k'
          omega
        · rw [if_neg hgoal]
          have h5 : AInv n out costs goals init h v (out v) bag' { st with queue := q } := by
            refine ⟨h4, fun a b hab => hi.entry a b (h2.symm.subset (List.mem_cons_of_mem _ hab)), hi.src, hi.le, hi.tree, ?_, hi.par, hi.reached, hi.stamp⟩
            intro u hu hfu
            rcases hi.close u hu hfu with a | ⟨a0, a⟩
            · rcases List.mem_cons.mp (h2.subset a) with e | e
              · simp only [Prod.mk.injEq] at e
                obtain ⟨e1, rfl⟩ := e
                exact Or.inr ⟨hgoal, fun op p h1 _ => Or.inl ⟨rfl, h1⟩⟩
              · exact Or.inl e
            · refine Or.inr ⟨a0, fun op p h1 h2 => Or.inr ?_⟩
              rcases a op p h1 h2 with b | b
              · simp at b
              · exact b
          obtain ⟨st1, bag1, j1, j2, j3⟩ := expand_spec H hG hh hB hv hgoal (out v) bag' { st with queue := q } (fun _ h => h) hfin h5
          simp only at j1
          rw [j1]
          simp only
          exact ih (amsr n bag1 st1) (by simp only [amsr] at hm j3 ⊢; omega) v bag1 st1 rfl j2

/-- a path from `i` to `j` whose states, except `j`, are not goals -/
inductive Trace (out : Nat → List Trans) (costs goals : List Nat) : Nat → List Trans → Nat → Prop where
  | nil (i) : Trace out costs goals i [] i
  | cons (i) (tr : Trans) (l j) : tr ∈ out i → i ∉ goals → costAt costs tr.op < infinite → Trace out costs goals tr.target l j → Trace out costs goals i (tr :: l) j

/-- the cost of a path -/
def traceCost (costs : List Nat) (l : List Trans) : Nat := (l.map (fun tr => costAt costs tr.op)).sum

theorem extract_spec {s : Nat} {st : SSt} (hf : AFin n out costs goals init C h s st) {stamp : Nat → Nat} {now : Nat} (t1 : ∀ v, stamp v ≤ now) (t2 : ∀ v p, st.parent v = some p → st.g p.target < st.g v ∨ stamp p.target < stamp v) :
    ∀ (m cur : Nat) (sol : List Trans), st.g cur * (now + 1) + stamp cur = m → cur < n → st.g cur < infinite → Trace out costs goals cur sol s → st.g cur + traceCost costs sol ≤ st.g s →
      ∃ sol', extract init st.parent cur sol = some sol' ∧ Trace out costs goals init sol' s ∧ traceCost costs sol' ≤ st.g s := by
  intro m
  induction m using Nat.strong_induction_on with
  | _ m ih =>
    intro cur sol hm hc hg ht hcost
    rw [extract]
    by_cases he : cur = init
    · rw [if_pos he]
      subst he
      exact ⟨sol, rfl, ht, by omega⟩
    · rw [if_neg he]
      cases hp : st.parent cur with
      | none => exact absurd hp (hf.reached cur hc hg he)
      | some p =>
        obtain ⟨p1, p2, p3, p4, p5⟩ := hf.par cur p hp
        simp only
        refine ih (st.g p.target * (now + 1) + stamp p.target) ?_ p.target _ rfl p1 (by omega) (.cons _ ⟨p.op, cur⟩ _ _ p3 p2 p4 ht) ?_
        · have h1 := t1 p.target
          have h2 := t1 cur
          rcases t2 cur p hp with k | k
          · have : (st.g p.target + 1) * (now + 1) ≤ st.g cur * (now + 1) := Nat.mul_le_mul_right _ k
            rw [Nat.succ_mul] at this
            omega
          · have : st.g p.target * (now + 1) ≤ st.g cur * (now + 1) := Nat.mul_le_mul_right _ (by omega)
            omega
        · simp only [traceCost, List.map_cons, List.sum_cons] at hcost ⊢
          omega

theorem solutionCost_spec (hr : ∀ i op j, (⟨op, j⟩ : Trans) ∈ out i → op < costs.length) {s : Nat} : ∀ (sol : List Trans) (i acc : Nat), Trace out costs goals i sol s → acc + traceCost costs sol < 2 ^ 31 → solutionCost costs sol acc = some (acc + traceCost costs sol)
  | [], _, acc, _, _ => by simp [solutionCost, traceCost]
  | tr :: sol, i, acc, ht, hb => by
    cases ht with
    | cons _ _ _ _ h1 h2 h3 h4 =>
      have ho := hr i tr.op tr.target h1
      have hcost : costAt costs tr.op = costs[tr.op] := by unfold costAt; rw [List.getElem?_eq_getElem ho]; rfl
      have e : traceCost costs (tr :: sol) = costs[tr.op] + traceCost costs sol := by simp [traceCost, hcost]
      unfold solutionCost
      rw [List.getElem?_eq_getElem ho]
      simp only
      rw [if_pos (by omega), solutionCost_spec hr sol _ _ h4 (by omega)]
      congr 1
      omega

theorem Trace.goal {i s : Nat} {sol : List Trans} (ht : Trace out costs goals i sol s) (hs : s ∈ goals) : FGoal out costs goals i (traceCost costs sol) := by
  induction ht with
  | nil i => exact .goal i hs
  | cons i tr l j h1 h2 h3 _ ih =>
    simp only [traceCost, List.map_cons, List.sum_cons]
    exact .step i tr.op tr.target _ ⟨h1, h3⟩ (ih hs)

/-- the search finds a solution, if there is one; it is optimal if the h values are lower bounds; then the new h values are lower bounds, too -/
theorem findSolution_spec (H : StdHeap Nat) (hG : GOk n out costs goals init C) (hh : ∀ i, h i ≤ B) (hB : n * C + B < infinite) {queue : Queue Nat} (hq : ∃ bag, Rep queue bag) :
    ∃ r h' q', findSolution H n costs h queue out init goals = some (r, h', q') ∧ (∃ bag, Rep q' bag) ∧
      (r = none → ∀ k, ¬FGoal out costs goals init k) ∧
      ∀ sol, r = some sol → (∃ s, s ∈ goals ∧ Trace out costs goals init sol s) ∧ (∀ i, h' i ≤ max B (n * C)) ∧
        (HAdm out costs goals h → (∀ k, FGoal out costs goals init k → traceCost costs sol ≤ k) ∧ HAdm out costs goals h') := by
  obtain ⟨bag, hq⟩ := hq
  obtain ⟨q0, c1, c2⟩ := hq.clear
  obtain ⟨q1, d1, d2⟩ := c2.push H (h init) init
  have hinf : infinite = 2 ^ 31 - 1 := rfl
  have hhi := hh init
  have h0 : AInv n out costs goals init h 0 [] [(h init, init)] ⟨Relax.upd (fun _ => infinite) init 0, fun _ => none, q1⟩ := by
    have hi0 : Relax.upd (fun _ => infinite) init 0 init = 0 := by simp [upd]
    have hfin : ∀ v, Relax.upd (fun _ => infinite) init 0 v < infinite → v = init := by
      intro v hv
      simp only [upd] at hv
      split at hv
      · assumption
      · exact absurd hv (Nat.lt_irrefl _)
    refine ⟨d2, ?_, hi0, ?_, ?_, ?_, by simp, fun v _ hf hv => absurd (hfin v hf) hv, ⟨fun _ => 0, 0, by simp, by simp⟩⟩
    · intro k v hkv
      simp only [List.mem_singleton, Prod.mk.injEq] at hkv
      obtain ⟨rfl, rfl⟩ := hkv
      exact ⟨hG.init, by simp only [hi0]; omega, by simp only [hi0]; omega, by omega⟩
    · intro v
      simp only [upd]
      split <;> omega
    · intro v _ hf
      have := hfin v hf
      subst this
      refine ⟨[], ?_⟩
      simp only [hi0]
      exact .src v rfl (Nat.le_of_eq hi0)
    · intro v _ hf
      have := hfin v hf
      subst this
      left
      simp only [hi0]
      simp
  obtain ⟨r, st', a1, a2, a3⟩ := astar_spec H hG hh hB _ 0 _ _ rfl h0
  unfold findSolution
  rw [c1]
  simp only
  rw [d1]
  simp only
  rw [a1]
  cases r with
  | none =>
    obtain ⟨⟨b, hb⟩, hno⟩ := a2 rfl
    obtain ⟨q', e1, e2⟩ := hb.clear
    simp only
    rw [e1]
    exact ⟨none, _, q', rfl, ⟨_, e2⟩, fun _ => hno, by simp⟩
  | some s =>
    have hf := a3 s rfl
    obtain ⟨b, hb⟩ := hf.rep
    obtain ⟨q', e1, e2⟩ := hb.clear
    obtain ⟨stamp, now, t1, t2⟩ := hf.stamp
    obtain ⟨sol, f1, f2, f3⟩ := extract_spec hf t1 t2 _ s [] rfl hf.lt hf.fin (.nil s) (by simp [traceCost])
    have hbs := hf.bound s hf.lt hf.fin
    have hfs := hf.fin
    have hsc := solutionCost_spec (fun i op j h => (hG.range i op j h).2.2) sol init 0 f2 (by omega)
    rw [Nat.zero_add] at hsc
    simp only
    rw [e1, f1]
    simp only
    rw [hsc]
    refine ⟨some sol, _, q', rfl, ⟨_, e2⟩, by simp, fun sol' hsol' => ?_⟩
    simp only [Option.some.injEq] at hsol'
    subst hsol'
    refine ⟨⟨s, hf.goal, f2⟩, fun i => ?_, fun had => ⟨fun k hk => ?_, fun i k hk => ?_⟩⟩
    · unfold raiseH
      have := hh i
      split
      · rw [Nat.max_le]
        have h1 : traceCost costs sol - st'.g i ≤ n * C := by omega
        exact ⟨Nat.le_trans this (Nat.le_max_left _ _), Nat.le_trans h1 (Nat.le_max_right _ _)⟩
      · exact Nat.le_trans this (Nat.le_max_left _ _)
    · have := hf.opt had init k hG.init (by rw [hf.src]; omega) hk
      rw [hf.src] at this
      omega
    · unfold raiseH
      have h1 := had i k hk
      split
      · rename_i hgi
        have hl : i < n := by
          cases hk with
          | goal _ hg => exact hG.goals _ hg
          | step _ _ _ _ he _ => exact (hG.range _ _ _ he.1).1
        have := hf.opt had i k hl hgi hk
        rw [Nat.max_le]
        exact ⟨h1, by omega⟩
      · exact h1

end Verif.Cart
