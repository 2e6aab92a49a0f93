import Verif.Model.Cartesian
import Verif.Spec.Cartesian
import Verif.Lemmas.StubbornBasic
import Verif.Lemmas.SimpleSucc

/-
Basic facts about Cartesian sets, preconditions and postconditions, and the refinement hierarchy.
-/
namespace Verif.Cart
open Verif.Stubborn (sortFacts mem_sortFacts Sorted sorted_sort)

/-! ### Cartesian sets -/

theorem split_fst (c : CSet) (v : Nat) (w : List Nat) (u x : Nat) : (c.split v w).1 u x = true ↔ c u x = true ∧ ¬(u = v ∧ x ∈ w) := by
  unfold CSet.split
  simp only
  induction w generalizing c with
  | nil => simp
  | cons y w ih =>
    rw [List.foldl_cons, ih]
    simp only [CSet.remove, List.mem_cons]
    by_cases h1 : u = v <;> by_cases h2 : x = y <;> simp [h1, h2]

theorem foldl_add (c : CSet) (v : Nat) (w : List Nat) (u x : Nat) : (w.foldl (fun c x => c.add v x) c) u x = true ↔ c u x = true ∨ (u = v ∧ x ∈ w) := by
  induction w generalizing c with
  | nil => simp
  | cons y w ih =>
    rw [List.foldl_cons, ih]
    simp only [CSet.add, List.mem_cons]
    by_cases h1 : u = v <;> by_cases h2 : x = y <;> simp [h1, h2]

theorem split_snd (c : CSet) (v : Nat) (w : List Nat) (u x : Nat) : (c.split v w).2 u x = true ↔ (u ≠ v ∧ c u x = true) ∨ (u = v ∧ x ∈ w) := by
  unfold CSet.split
  simp only
  rw [foldl_add]
  simp only [CSet.removeAll]
  by_cases h1 : u = v <;> simp [h1]

theorem includesState_iff {c : CSet} {s : State} : c.includesState s = true ↔ ∀ v x : Nat, s[v]? = some x → c v x = true := by
  unfold CSet.includesState
  simp only [List.all_eq_true, Prod.forall]
  constructor
  · intro h v x hx
    exact h x v (by rw [List.mem_zipIdx_iff_getElem?]; exact hx)
  · intro h x v hx
    exact h v x (by rw [List.mem_zipIdx_iff_getElem?] at hx; exact hx)

theorem includesFacts_iff {c : CSet} {fs : List Fact} : c.includesFacts fs = true ↔ ∀ f ∈ fs, c f.var f.val = true := by
  simp [CSet.includesFacts]

theorem intersects_iff {dom : List Nat} {c c' : CSet} {v : Nat} : c.intersects dom c' v = true ↔ ∃ x, x < (dom[v]?).getD 0 ∧ c v x = true ∧ c' v x = true := by
  simp [CSet.intersects]

/-- all values are values of the variables -/
def Within (t : Task) (c : CSet) : Prop := ∀ v x, c v x = true → ∃ d, t.vars[v]? = some d ∧ x < d.domain

theorem intersects_within {t : Task} {c c' : CSet} (hc : Within t c ∨ Within t c') {v : Nat} : c.intersects (domainSizes t) c' v = true ↔ ∃ x, c v x = true ∧ c' v x = true := by
  rw [intersects_iff]
  constructor
  · rintro ⟨x, _, h⟩; exact ⟨x, h⟩
  · rintro ⟨x, h1, h2⟩
    have : ∃ d, t.vars[v]? = some d ∧ x < d.domain := by
      rcases hc with h | h
      · exact h v x h1
      · exact h v x h2
    obtain ⟨d, hd, hx⟩ := this
    exact ⟨x, by simp [domainSizes, hd, hx], h1, h2⟩

theorem full_iff {t : Task} {v x : Nat} : CSet.full (domainSizes t) v x = true ↔ ∃ d, t.vars[v]? = some d ∧ x < d.domain := by
  unfold CSet.full domainSizes
  rw [List.getElem?_map]
  cases t.vars[v]? <;> simp

theorem full_state {t : Task} {s : State} (hs : t.ValidState s) : (CSet.full (domainSizes t)).includesState s = true := by
  rw [includesState_iff]
  intro v x hx
  rw [full_iff]
  have hv : v < t.vars.length := by
    have := (List.getElem?_eq_some_iff.mp hx).1
    rw [← hs.1]; exact this
  exact ⟨t.vars[v], List.getElem?_eq_getElem hv, hs.2 v x _ hx (List.getElem?_eq_getElem hv)⟩

theorem Within.split {t : Task} {c : CSet} (h : Within t c) {v : Nat} {w : List Nat} (hw : ∀ x ∈ w, c v x = true) : Within t (c.split v w).1 ∧ Within t (c.split v w).2 := by
  constructor
  · intro u x hx
    exact h u x ((split_fst c v w u x).mp hx).1
  · intro u x hx
    rcases (split_snd c v w u x).mp hx with ⟨_, h2⟩ | ⟨rfl, h2⟩
    · exact h u x h2
    · exact h u x (hw x h2)

/-! ### Preconditions and postconditions -/

theorem lookupValue_none {l : List Fact} {v : Nat} (h : ∀ f ∈ l, f.var ≠ v) : lookupValue l v = none := by
  induction l with
  | nil => rfl
  | cons f l ih =>
    unfold lookupValue
    rw [if_neg (h f (by simp))]
    split
    · rfl
    · exact ih (fun g hg => h g (by simp [hg]))

theorem lookupValue_iff {l : List Fact} (h : Sorted l) {v x : Nat} : lookupValue l v = some x ↔ ⟨v, x⟩ ∈ l := by
  induction l with
  | nil => simp [lookupValue]
  | cons f l ih =>
    have hf := fun g hg => List.rel_of_pairwise_cons h (a' := g) hg
    unfold lookupValue
    by_cases h1 : f.var = v
    · rw [if_pos h1]
      subst h1
      simp only [Option.some.injEq, List.mem_cons]
      constructor
      · rintro rfl; exact Or.inl rfl
      · rintro (e | e)
        · rw [← e]
        · have := hf _ e
          simp at this
    · rw [if_neg h1]
      have hne : (⟨v, x⟩ : Fact) ≠ f := fun e => h1 (by rw [← e])
      by_cases h2 : f.var > v
      · rw [if_pos h2]
        simp only [reduceCtorEq, List.mem_cons, false_iff, not_or]
        refine ⟨hne, fun e => ?_⟩
        have := hf _ e
        simp at this
        omega
      · rw [if_neg h2, ih h.of_cons]
        simp [hne]

theorem sorted_mapSet {m : List Fact} (h : Sorted m) (f : Fact) : Sorted (mapSet m f) ∧ ∀ g ∈ mapSet m f, g = f ∨ g ∈ m := by
  induction m with
  | nil => simp [mapSet, Sorted]
  | cons g m ih =>
    have hg := fun k hk => List.rel_of_pairwise_cons h (a' := k) hk
    obtain ⟨i1, i2⟩ := ih h.of_cons
    unfold mapSet
    by_cases h1 : f.var < g.var
    · rw [if_pos h1]
      refine ⟨List.pairwise_cons.mpr ⟨?_, h⟩, fun k hk => by simpa using hk⟩
      intro k hk
      rcases List.mem_cons.mp hk with rfl | hk
      · exact h1
      · exact Nat.lt_trans h1 (hg k hk)
    · rw [if_neg h1]
      by_cases h2 : f.var = g.var
      · rw [if_pos h2]
        refine ⟨List.pairwise_cons.mpr ⟨fun k hk => by rw [h2]; exact hg k hk, h.of_cons⟩, fun k hk => ?_⟩
        rcases List.mem_cons.mp hk with rfl | hk
        · exact Or.inl rfl
        · exact Or.inr (by simp [hk])
      · rw [if_neg h2]
        refine ⟨List.pairwise_cons.mpr ⟨fun k hk => ?_, i1⟩, fun k hk => ?_⟩
        · rcases i2 k hk with rfl | hk
          · omega
          · exact hg k hk
        · rcases List.mem_cons.mp hk with rfl | hk
          · exact Or.inr (by simp)
          · rcases i2 k hk with rfl | hk
            · exact Or.inl rfl
            · exact Or.inr (by simp [hk])

theorem lookup_mapSet {m : List Fact} (h : Sorted m) (f : Fact) (v : Nat) : lookupValue (mapSet m f) v = if f.var = v then some f.val else lookupValue m v := by
  induction m with
  | nil => by_cases h1 : f.var = v <;> simp [mapSet, lookupValue, h1]
  | cons g m ih =>
    unfold mapSet
    by_cases h1 : f.var < g.var
    · rw [if_pos h1, lookupValue]
      by_cases h2 : f.var = v
      · simp [h2]
      · rw [if_neg h2, if_neg h2]
        by_cases h3 : f.var > v
        · rw [if_pos h3, lookupValue, if_neg (by omega), if_pos (by omega)]
        · rw [if_neg h3]
    · rw [if_neg h1]
      by_cases h2 : f.var = g.var
      · rw [if_pos h2, lookupValue, lookupValue, h2]
        by_cases h3 : g.var = v
        · simp [h3]
        · simp [h3]
      · rw [if_neg h2, lookupValue, lookupValue, ih h.of_cons]
        by_cases h3 : g.var = v
        · rw [if_pos h3, if_pos h3, if_neg (by omega)]
        · rw [if_neg h3, if_neg h3]
          by_cases h4 : g.var > v
          · rw [if_pos h4, if_pos h4, if_neg (by omega)]
          · rw [if_neg h4, if_neg h4]

theorem lookup_foldl {l : List Fact} : ∀ {m : List Fact}, Sorted m → (l.map (·.var)).Nodup → Sorted (l.foldl mapSet m) ∧ ∀ v x, lookupValue (l.foldl mapSet m) v = some x ↔ ⟨v, x⟩ ∈ l ∨ ((∀ f ∈ l, f.var ≠ v) ∧ lookupValue m v = some x) := by
  induction l with
  | nil => intro m hm _; exact ⟨hm, by simp⟩
  | cons f l ih =>
    intro m hm hn
    rw [List.map_cons, List.nodup_cons] at hn
    obtain ⟨i1, i2⟩ := ih (sorted_mapSet hm f).1 hn.2
    refine ⟨i1, fun v x => ?_⟩
    rw [List.foldl_cons, i2 v x, lookup_mapSet hm]
    by_cases h1 : f.var = v
    · rw [if_pos h1]
      subst h1
      have hno : ∀ g ∈ l, g.var ≠ f.var := fun g hg e => hn.1 (by rw [← e]; exact List.mem_map_of_mem hg)
      simp only [Option.some.injEq, List.mem_cons]
      constructor
      · rintro (h | ⟨_, rfl⟩)
        · exact Or.inl (Or.inr h)
        · exact Or.inl (Or.inl rfl)
      · rintro ((h | h) | ⟨h, _⟩)
        · exact Or.inr ⟨hno, by rw [← h]⟩
        · exact Or.inl h
        · exact absurd rfl (h f (Or.inl rfl))
    · rw [if_neg h1]
      have : (⟨v, x⟩ : Fact) ≠ f := fun e => h1 (by rw [← e])
      simp [this, h1]

variable {t : Task}

theorem preValue_iff (ht : CartesianTask t) {op : Nat} {o : Operator} (ho : t.ops[op]? = some o) {v x : Nat} : preValue t op v = some x ↔ ⟨v, x⟩ ∈ o.pre := by
  unfold preValue
  rw [ho]
  simp only [Option.map_some, Option.getD_some]
  rw [lookupValue_iff (sorted_sort (ht.pre o (List.mem_of_getElem? ho))), mem_sortFacts]

theorem postValue_iff (ht : CartesianTask t) {op : Nat} {o : Operator} (ho : t.ops[op]? = some o) {v x : Nat} :
    postValue t op v = some x ↔ (∃ e ∈ o.effects, e.fact = ⟨v, x⟩) ∨ ((∀ e ∈ o.effects, e.fact.var ≠ v) ∧ ⟨v, x⟩ ∈ o.pre) := by
  unfold postValue
  rw [ho]
  simp only [Option.map_some, Option.getD_some]
  unfold postconditions
  have hm := List.mem_of_getElem? ho
  obtain ⟨h1, h2⟩ := lookup_foldl (l := o.pre) (m := []) (by simp [Sorted]) (ht.pre o hm)
  have he : o.effects.foldl (fun m e => mapSet m e.fact) (o.pre.foldl mapSet []) = (o.effects.map (·.fact)).foldl mapSet (o.pre.foldl mapSet []) := by rw [List.foldl_map]
  rw [he]
  obtain ⟨_, h3⟩ := lookup_foldl (l := o.effects.map (·.fact)) h1 (by rw [List.map_map]; exact ht.eff o hm)
  rw [h3, h2]
  simp [lookupValue]

/-- the values of the variables before and after a step -/
theorem step_values (ht : CartesianTask t) {s s' : State} {op : Nat} (hs : t.ValidState s) (h : t.Step s op s') :
    t.ValidState s' ∧ (∀ v x, preValue t op v = some x → s[v]? = some x) ∧ (∀ v y, postValue t op v = some y → s'[v]? = some y) ∧ (∀ v, postValue t op v = none → s'[v]? = s[v]?) := by
  obtain ⟨o, ho, ha, hsucc⟩ := h
  have hm := List.mem_of_getElem? ho
  obtain ⟨k1, k2, k3⟩ := succ_simple ht.wf ht.noAxioms (ht.unconditional o hm) (ht.eff o hm) hsucc
  refine ⟨succ_valid ht.wf hs ho ha hsucc, fun v x hx => ha _ ((preValue_iff ht ho).mp hx), fun v y hy => ?_, fun v hv => ?_⟩
  · rcases (postValue_iff ht ho).mp hy with ⟨e, he, hf⟩ | ⟨h1, h2⟩
    · have hlt : e.fact.var < s.length := by
        obtain ⟨d, hd, _⟩ := ht.wf.effFact o hm e he
        rw [hs.1]; exact (List.getElem?_eq_some_iff.mp hd).1
      have := k2 e he hlt
      rw [hf] at this
      exact this
    · rw [k3 v h1]
      exact ha _ h2
  · apply k3
    intro e he hev
    have : postValue t op v = some e.fact.val := (postValue_iff ht ho).mpr (Or.inl ⟨e, he, by rw [← hev]⟩)
    rw [hv] at this; simp at this

/-- an operator whose preconditions hold leads to some state -/
theorem step_exists (ht : CartesianTask t) {s : State} {op : Nat} (hs : t.ValidState s) (hop : op < t.ops.length) (h : ∀ v x, preValue t op v = some x → s[v]? = some x) : ∃ s', t.Step s op s' := by
  have ho := List.getElem?_eq_getElem hop
  obtain ⟨s', _, h2⟩ := exists_succ ht.wf hs (List.mem_of_getElem? ho)
  exact ⟨s', _, ho, fun f hf => h f.var f.val ((preValue_iff ht ho).mpr hf), h2⟩

theorem step_op {s s' : State} {op : Nat} (h : t.Step s op s') : op < t.ops.length := by
  obtain ⟨o, ho, _⟩ := h
  exact (List.getElem?_eq_some_iff.mp ho).1

theorem post_of_pre (ht : CartesianTask t) {op v x : Nat} (h : preValue t op v = some x) : ∃ y, postValue t op v = some y := by
  cases ho : t.ops[op]? with
  | none => simp [preValue, ho, lookupValue, sortFacts] at h
  | some o =>
    have h1 := (preValue_iff ht ho).mp h
    by_cases h2 : ∀ e ∈ o.effects, e.fact.var ≠ v
    · exact ⟨x, (postValue_iff ht ho).mpr (Or.inr ⟨h2, h1⟩)⟩
    · push Not at h2
      obtain ⟨e, he, hv⟩ := h2
      exact ⟨e.fact.val, (postValue_iff ht ho).mpr (Or.inl ⟨e, he, by rw [← hv]⟩)⟩

/-! ### The refinement hierarchy -/

/-- the lookup of `s` leads from a node to a leaf -/
inductive Leads (nodes : List Node) (s : State) : Nat → Nat → Prop where
  | leaf (id i) : nodes[id]? = some (.leaf i) → Leads nodes s id id
  | right (id v x l r k) : nodes[id]? = some (.split v x l r) → s[v]? = some x → Leads nodes s r k → Leads nodes s id k
  | left (id v x l r k y) : nodes[id]? = some (.split v x l r) → s[v]? = some y → y ≠ x → Leads nodes s l k → Leads nodes s id k

theorem Leads.lookup {nodes : List Node} {s : State} {id k i : Nat} (h : Leads nodes s id k) (hi : nodes[k]? = some (.leaf i)) : Cart.lookup nodes s id = some i := by
  induction h with
  | leaf id j h1 => rw [Cart.lookup, hi]
  | right id v x l r k h1 h2 _ ih => rw [Cart.lookup, h1]; simp only [h2, if_true]; exact ih hi
  | left id v x l r k y h1 h2 h3 _ ih => rw [Cart.lookup, h1]; simp only [h2, if_neg h3]; exact ih hi

theorem Leads.isLeaf {nodes : List Node} {s : State} {id k : Nat} (h : Leads nodes s id k) : ∃ i, nodes[k]? = some (.leaf i) := by
  induction h with
  | leaf id j h1 => exact ⟨j, h1⟩
  | right _ _ _ _ _ _ _ _ _ ih => exact ih
  | left _ _ _ _ _ _ _ _ _ _ _ ih => exact ih

theorem Leads.unique {nodes : List Node} {s : State} {id k k' : Nat} (h : Leads nodes s id k) (h' : Leads nodes s id k') : k = k' := by
  induction h with
  | leaf id j h1 =>
    cases h' with
    | leaf _ _ _ => rfl
    | right _ _ _ _ _ _ h2 _ _ => rw [h1] at h2; simp at h2
    | left _ _ _ _ _ _ _ h2 _ _ _ => rw [h1] at h2; simp at h2
  | right id v x l r k h1 h2 _ ih =>
    cases h' with
    | leaf _ _ h3 => rw [h1] at h3; simp at h3
    | right _ _ _ _ _ _ h3 _ h4 => rw [h1] at h3; simp at h3; obtain ⟨rfl, rfl, rfl, rfl⟩ := h3; exact ih h4
    | left _ _ _ _ _ _ y h3 h4 h5 _ => rw [h1] at h3; simp at h3; obtain ⟨rfl, rfl, rfl, rfl⟩ := h3; rw [h2] at h4; simp at h4; exact absurd h4.symm h5
  | left id v x l r k y h1 h2 h3 _ ih =>
    cases h' with
    | leaf _ _ h4 => rw [h1] at h4; simp at h4
    | right _ _ _ _ _ _ h4 h5 _ => rw [h1] at h4; simp at h4; obtain ⟨rfl, rfl, rfl, rfl⟩ := h4; rw [h2] at h5; simp at h5; exact absurd h5 h3
    | left _ _ _ _ _ _ _ h4 _ _ h5 => rw [h1] at h4; simp at h4; obtain ⟨rfl, rfl, rfl, rfl⟩ := h4; exact ih h5

/-- the new nodes: old nodes other than the one that is split do not change, and the lookup leads from that node to the node of the left or of the right state -/
theorem splitLoop_spec {var leftState right : Nat} : ∀ {values : List Nat} {helper : Nat} {nodes : List Node}, nodes[helper]? = some (.leaf leftState) → (∃ i, nodes[right]? = some (.leaf i)) → right ≠ helper →
    ∃ nodes' n1, splitLoop var leftState right values helper nodes = some (nodes', n1) ∧ nodes.length ≤ nodes'.length ∧ (∀ j, j ≠ helper → j < nodes.length → nodes'[j]? = nodes[j]?) ∧
      nodes'[n1]? = some (.leaf leftState) ∧ (n1 = helper ∨ nodes.length ≤ n1) ∧
      ∀ (s : State) y, s[var]? = some y → (y ∈ values → Leads nodes' s helper right) ∧ (y ∉ values → Leads nodes' s helper n1)
  | [], helper, nodes, h1, _, _ => ⟨nodes, helper, rfl, Nat.le_refl _, fun _ _ _ => rfl, h1, Or.inl rfl, fun _ _ _ => ⟨by simp, fun _ => .leaf _ _ h1⟩⟩
  | x :: xs, helper, nodes, h1, h2, h3 => by
    have hlt := (List.getElem?_eq_some_iff.mp h1).1
    obtain ⟨i, hi⟩ := h2
    have hrt := (List.getElem?_eq_some_iff.mp hi).1
    have hold : ∀ j, j ≠ helper → j < nodes.length → ((nodes ++ [Node.leaf leftState]).set helper (Node.split var x nodes.length right))[j]? = nodes[j]? := by
      intro j hj hl
      rw [List.getElem?_set_ne (fun e => hj e.symm), List.getElem?_append_left hl]
    have hnew : ((nodes ++ [Node.leaf leftState]).set helper (Node.split var x nodes.length right))[nodes.length]? = some (.leaf leftState) := by
      rw [List.getElem?_set_ne (by omega)]; simp
    have hspl : ((nodes ++ [Node.leaf leftState]).set helper (Node.split var x nodes.length right))[helper]? = some (.split var x nodes.length right) := by
      rw [List.getElem?_set_self (by simp; omega)]
    obtain ⟨nodes', n1, k1, k2, k3, k4, k5, k6⟩ := splitLoop_spec (values := xs) (var := var) hnew ⟨i, by rw [hold right h3 hrt]; exact hi⟩ (show right ≠ nodes.length by omega)
    simp only [List.length_set, List.length_append, List.length_cons, List.length_nil, Nat.zero_add] at k2 k3 k5
    refine ⟨nodes', n1, ?_, by omega, ?_, k4, by omega, ?_⟩
    · unfold splitLoop
      rw [if_pos hlt, k1]
    · intro j hj hl
      rw [k3 j (by omega) (by omega), hold j hj hl]
    · intro s y hy
      have hsp : nodes'[helper]? = some (.split var x nodes.length right) := by rw [k3 helper (by omega) (by omega), hspl]
      obtain ⟨j1, j2⟩ := k6 s y hy
      have hr : Leads nodes' s right right := .leaf _ i (by rw [k3 right (by omega) (by omega), hold right h3 hrt]; exact hi)
      constructor
      · intro hmem
        by_cases e : y = x
        · subst e; exact .right _ _ _ _ _ _ hsp hy hr
        · exact .left _ _ _ _ _ _ y hsp hy e (j1 (by simpa [e] using hmem))
      · intro hmem
        have e : y ≠ x := fun e => hmem (by simp [e])
        exact .left _ _ _ _ _ _ y hsp hy e (j2 (fun h => hmem (by simp [h])))

theorem splitNode_spec {nodes : List Node} {node var leftState rightState : Nat} {values : List Nat} (h : nodes[node]? = some (.leaf leftState)) :
    ∃ nodes' n1 n2, splitNode nodes node var values leftState rightState = some (nodes', n1, n2) ∧ (∀ j, j ≠ node → j < nodes.length → nodes'[j]? = nodes[j]?) ∧
      nodes'[n1]? = some (.leaf leftState) ∧ nodes'[n2]? = some (.leaf rightState) ∧ (n1 = node ∨ nodes.length ≤ n1) ∧ nodes.length ≤ n2 ∧ n1 ≠ n2 ∧
      ∀ (s : State) y, s[var]? = some y → (y ∈ values → Leads nodes' s node n2) ∧ (y ∉ values → Leads nodes' s node n1) := by
  have hlt := (List.getElem?_eq_some_iff.mp h).1
  have hr : (nodes ++ [Node.leaf rightState])[nodes.length]? = some (.leaf rightState) := by simp
  obtain ⟨nodes', n1, k1, k2, k3, k4, k5, k6⟩ := splitLoop_spec (var := var) (leftState := leftState) (right := nodes.length) (values := values) (helper := node) (nodes := nodes ++ [.leaf rightState])
    (by rw [List.getElem?_append_left hlt]; exact h) ⟨rightState, hr⟩ (by omega)
  simp only [List.length_append, List.length_cons, List.length_nil, Nat.zero_add] at k2 k3 k5
  refine ⟨nodes', n1, nodes.length, by simp [splitNode, k1], ?_, k4, ?_, by omega, Nat.le_refl _, by omega, k6⟩
  · intro j hj hl
    rw [k3 j hj (by omega), List.getElem?_append_left hl]
  · rw [k3 _ (by omega) (by omega), hr]

/-- lookups in the old nodes carry over -/
theorem Leads.extend {nodes nodes' : List Node} {node : Nat} {s : State} (hold : ∀ j, j ≠ node → j < nodes.length → nodes'[j]? = nodes[j]?) {i : Nat} (hleaf : nodes[node]? = some (.leaf i)) {id k : Nat} (h : Leads nodes s id k) :
    (k ≠ node → Leads nodes' s id k) ∧ (k = node → ∀ m, Leads nodes' s node m → Leads nodes' s id m) := by
  have hsame : ∀ id v x l r : Nat, nodes[id]? = some (Node.split v x l r) → nodes'[id]? = some (Node.split v x l r) := by
    intro id v x l r h
    rw [hold id (fun e => by subst e; rw [h] at hleaf; simp at hleaf) (List.getElem?_eq_some_iff.mp h).1]; exact h
  induction h with
  | leaf id j h1 => exact ⟨fun hne => .leaf _ j (by rw [hold id hne (List.getElem?_eq_some_iff.mp h1).1]; exact h1), fun e m hm => by subst e; exact hm⟩
  | right id v x l r k h1 h2 _ ih => exact ⟨fun hne => .right _ _ _ _ _ _ (hsame _ _ _ _ _ h1) h2 (ih.1 hne), fun e m hm => .right _ _ _ _ _ _ (hsame _ _ _ _ _ h1) h2 (ih.2 e m hm)⟩
  | left id v x l r k y h1 h2 h3 _ ih => exact ⟨fun hne => .left _ _ _ _ _ _ y (hsame _ _ _ _ _ h1) h2 h3 (ih.1 hne), fun e m hm => .left _ _ _ _ _ _ y (hsame _ _ _ _ _ h1) h2 h3 (ih.2 e m hm)⟩

end Verif.Cart
