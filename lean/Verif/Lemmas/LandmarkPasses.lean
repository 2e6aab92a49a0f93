import Verif.Lemmas.Landmarks

/- What the passes of the tracking of landmarks do with the bit sets. -/
namespace Verif.Landmarks

theorem zipIdx_nodup (g : Graph) : (g.zipIdx.map (fun x => x.2)).Nodup := by
  have : g.zipIdx.map (fun x => x.2) = List.range' 0 g.length := List.zipIdx_map_snd 0 g
  rw [this]
  exact List.nodup_range'

theorem mem_zipIdx {g : Graph} {x : Node × Nat} : x ∈ g.zipIdx ↔ g[x.2]? = some x.1 := List.mem_zipIdx_iff_getElem?

theorem zipIdx_lt {g : Graph} {x : Node × Nat} (h : x ∈ g.zipIdx) : x.2 < g.length := (List.getElem?_eq_some_iff.mp (mem_zipIdx.mp h)).1

/-- the parts of the validity of a graph that make the passes well defined -/
structure Graph.Ok (t : Task) (g : Graph) : Prop where
  atoms : ∀ n ∈ g, ∀ f ∈ n.landmark.atoms, t.ValidFact f
  parents : ∀ b ∈ g, ∀ x ∈ b.parents, x.1 < g.length
  children : ∀ b ∈ g, ∀ x ∈ b.children, x.1 < g.length

theorem Graph.Valid.ok {t : Task} {g : Graph} (h : g.Valid t) : g.Ok t where
  atoms := h.atoms
  parents b hb x hx := by
    obtain ⟨a, ha, _⟩ := h.parents b hb x.1 x.2 hx
    exact (List.getElem?_eq_some_iff.mp ha).1
  children b hb x hx := by
    obtain ⟨a, ha, _⟩ := h.children b hb x.1 x.2 hx
    exact (List.getElem?_eq_some_iff.mp ha).1

/-- the landmark with number `i` -/
def Graph.L (g : Graph) (i : Nat) (s : State) : Prop := ∃ n, g[i]? = some n ∧ n.landmark.Holds s

theorem L_eq {g : Graph} {i : Nat} {n : Node} (h : g[i]? = some n) : g.L i = n.landmark.Holds := by
  funext s
  simp [Graph.L, h]

variable {t : Task} {g : Graph} (hg : g.Ok t)
include hg

theorem node_spec {s : State} (hs : t.ValidState s) {i : Nat} {n : Node} (h : g[i]? = some n) : ∃ b, n.landmark.isTrueInState s = some b ∧ (b = true ↔ g.L i s) := by
  rw [L_eq h]
  exact isTrue_spec hs (hg.atoms n (List.mem_of_getElem? h))

theorem someParentFalse_spec {s : State} (hs : t.ValidState s) : ∀ (ps : List (Nat × OrderingType)), (∀ p ∈ ps, p.1 < g.length) →
    ∃ b, someParentFalse g s ps = some b ∧ (b = true ↔ ∃ p ∈ ps, ¬g.L p.1 s)
  | [], _ => ⟨false, rfl, by simp⟩
  | p :: ps, h => by
    have hp := h p (by simp)
    obtain ⟨b, h1, h2⟩ := node_spec hg hs (List.getElem?_eq_getElem hp)
    obtain ⟨b', h3, h4⟩ := someParentFalse_spec hs ps (fun q hq => h q (by simp [hq]))
    unfold someParentFalse
    rw [List.getElem?_eq_getElem hp]
    simp only [h1]
    cases b with
    | true =>
      refine ⟨b', h3, ?_⟩
      rw [h4]
      simp [h2.mp rfl]
    | false =>
      have : ¬g.L p.1 s := fun h => by simpa using h2.mpr h
      exact ⟨true, rfl, by simp [this]⟩

theorem initial_pass {s : State} (hs : t.ValidState s) {p f : Bits} (hp : p.length = g.length) (hf : f.length = g.length)
    (hpast : ∀ i, g.L i s → p[i]? = some true) :
    ∃ p' f', g.zipIdx.foldlM (progressInitialNode g s) (p, f) = some (p', f') ∧ p'.length = g.length ∧ f'.length = g.length ∧ ∀ i < g.length,
      (p'[i]? = some false ↔ p[i]? = some false ∨ ¬g.L i s) ∧
      (f'[i]? = some true ↔ f[i]? = some true ∨ ¬g.L i s ∨ ∃ n, g[i]? = some n ∧ ∃ q ∈ n.parents, ¬g.L q.1 s) := by
  obtain ⟨p', f', h1, h2, h3, h4⟩ := foldlM_bits (progressInitialNode g s) g.length (fun x => x.2) (fun x => ¬g.L x.2 s)
    (fun x => ¬g.L x.2 s ∨ ∃ q ∈ x.1.parents, ¬g.L q.1 s) p g.zipIdx p f hp hf hp (zipIdx_nodup g) (fun x hx => zipIdx_lt hx) (fun _ _ => rfl)
    (by
      intro x hx p1 f1 hp1 hf1 heq
      have hx' := mem_zipIdx.mp hx
      have hlt := zipIdx_lt hx
      obtain ⟨b, k1, k2⟩ := node_spec hg hs hx'
      obtain ⟨b', k3, k4⟩ := someParentFalse_spec hg hs x.1.parents (hg.parents _ (List.mem_of_getElem? hx'))
      unfold progressInitialNode
      rw [k1]
      cases b with
      | true =>
        have hL := k2.mp rfl
        simp only
        rw [heq, hpast _ hL, if_pos rfl, k3]
        cases b' with
        | true =>
          have hq := k4.mp rfl
          simp only [write_some true (by omega : x.2 < f1.length), Option.map_some]
          refine ⟨_, rfl, rfl, by simp, fun j hj => ⟨by simp [hL], ?_⟩⟩
          simp only [List.getElem?_set, hL, not_true, false_or, hq, and_true]
          by_cases he : x.2 = j
          · subst he; simp [hf1, hlt]
          · simp [he, Ne.symm he]
        | false =>
          have hq : ¬∃ q ∈ x.1.parents, ¬g.L q.1 s := fun h => by simpa using k4.mpr h
          refine ⟨_, rfl, rfl, rfl, fun j hj => ⟨by simp [hL], ?_⟩⟩
          rw [or_iff_right (b := ∃ q ∈ x.1.parents, ¬g.L q.1 s) (not_not.mpr hL)]
          simp only [hq, and_false, or_false]
      | false =>
        have hL : ¬g.L x.2 s := fun h => by simpa using k2.mpr h
        simp only [write_some false (by omega : x.2 < p1.length), write_some true (by omega : x.2 < f1.length)]
        refine ⟨_, rfl, by simp, by simp, fun j hj => ?_⟩
        simp only [List.getElem?_set, hL, not_false_eq_true, true_or, and_true]
        by_cases he : x.2 = j
        · subst he; simp [hf1, hp1, hlt]
        · simp [he, Ne.symm he])
  refine ⟨p', f', h1, h2, h3, fun i hi => ?_⟩
  obtain ⟨g1, g2⟩ := h4 i hi
  rw [g1, g2]
  have hgi : g[i]? = some g[i] := List.getElem?_eq_getElem hi
  constructor
  · refine or_congr Iff.rfl ?_
    constructor
    · rintro ⟨x, _, rfl, h⟩; exact h
    · intro h; exact ⟨(g[i], i), mem_zipIdx.mpr hgi, rfl, h⟩
  · refine or_congr Iff.rfl ?_
    constructor
    · rintro ⟨x, hx, rfl, h | h⟩
      · exact Or.inl h
      · exact Or.inr ⟨x.1, mem_zipIdx.mp hx, h⟩
    · rintro (h | ⟨n, hn, h⟩)
      · exact ⟨(g[i], i), mem_zipIdx.mpr hgi, rfl, Or.inl h⟩
      · exact ⟨(n, i), mem_zipIdx.mpr hn, rfl, Or.inr h⟩

theorem landmarks_pass {parent s : State} (hpa : t.ValidState parent) (hs : t.ValidState s) {pp pf p f : Bits} (hpp : pp.length = g.length) (hpf : pf.length = g.length)
    (hp : p.length = g.length) (hf : f.length = g.length) (hpast : ∀ i, g.L i parent → pp[i]? = some true) :
    ∃ p' f', progressLandmarks g pp pf parent p f s = some (p', f') ∧ p'.length = g.length ∧ f'.length = g.length ∧ ∀ i < g.length,
      (p'[i]? = some false ↔ p[i]? = some false ∨ (pf[i]? = some true ∧ pp[i]? = some false ∧ ¬g.L i s)) ∧
      (f'[i]? = some true ↔ f[i]? = some true ∨ (pf[i]? = some true ∧ (¬g.L i s ∨ g.L i parent))) := by
  obtain ⟨p', f', h1, h2, h3, h4⟩ := foldlM_bits (progressNode pp pf parent s) g.length (fun x => x.2) (fun x => pf[x.2]? = some true ∧ pp[x.2]? = some false ∧ ¬g.L x.2 s)
    (fun x => pf[x.2]? = some true ∧ (¬g.L x.2 s ∨ g.L x.2 parent)) p g.zipIdx p f hp hf hp (zipIdx_nodup g) (fun x hx => zipIdx_lt hx) (fun _ _ => rfl)
    (by
      intro x hx p1 f1 hp1 hf1 _
      have hx' := mem_zipIdx.mp hx
      have hlt := zipIdx_lt hx
      obtain ⟨b, k1, k2⟩ := node_spec hg hs hx'
      obtain ⟨b', k3, k4⟩ := node_spec hg hpa hx'
      unfold progressNode
      rcases bit_cases (by omega : x.2 < pf.length) with e | e
      · rw [e, k1]
        cases b with
        | false =>
          have hL : ¬g.L x.2 s := fun h => by simpa using k2.mpr h
          simp only [write_some true (by omega : x.2 < f1.length)]
          rcases bit_cases (by omega : x.2 < pp.length) with e' | e'
          · rw [e']
            refine ⟨_, rfl, rfl, by simp, fun j hj => ⟨by simp, ?_⟩⟩
            simp only [List.getElem?_set, hL, not_false_eq_true, true_or, and_true]
            by_cases he : x.2 = j
            · subst he; simp [hf1, hlt]
            · simp [he, Ne.symm he]
          · rw [e']
            simp only [write_some false (by omega : x.2 < p1.length), Option.map_some]
            refine ⟨_, rfl, by simp, by simp, fun j hj => ?_⟩
            simp only [List.getElem?_set, hL, not_false_eq_true, true_or, and_true]
            by_cases he : x.2 = j
            · subst he; simp [hf1, hp1, hlt]
            · simp [he, Ne.symm he]
        | true =>
          have hL := k2.mp rfl
          simp only [k3]
          cases b' with
          | false =>
            have hL' : ¬g.L x.2 parent := fun h => by simpa using k4.mpr h
            exact ⟨_, rfl, rfl, rfl, fun j hj => by simp [hL, hL']⟩
          | true =>
            have hL' := k4.mp rfl
            simp only [if_pos (hpast _ hL'), write_some true (by omega : x.2 < f1.length), Option.map_some]
            refine ⟨_, rfl, rfl, by simp, fun j hj => ⟨by simp [hL], ?_⟩⟩
            simp only [List.getElem?_set, hL', or_true, and_true]
            by_cases he : x.2 = j
            · subst he; simp [hf1, hlt]
            · simp [he, Ne.symm he]
      · rw [e]
        exact ⟨_, rfl, rfl, rfl, fun j hj => by simp⟩)
  refine ⟨p', f', h1, h2, h3, fun i hi => ?_⟩
  obtain ⟨g1, g2⟩ := h4 i hi
  rw [g1, g2]
  have hgi : g[i]? = some g[i] := List.getElem?_eq_getElem hi
  constructor
  · refine or_congr Iff.rfl ?_
    constructor
    · rintro ⟨x, _, rfl, h⟩; exact h
    · intro h; exact ⟨(g[i], i), mem_zipIdx.mpr hgi, rfl, h⟩
  · refine or_congr Iff.rfl ?_
    constructor
    · rintro ⟨x, _, rfl, h⟩; exact h
    · intro h; exact ⟨(g[i], i), mem_zipIdx.mpr hgi, rfl, h⟩

theorem goals_pass {s : State} (hs : t.ValidState s) {gl : List Nat} (hgl : ∀ i ∈ gl, i < g.length) {f : Bits} (hf : f.length = g.length) :
    ∃ f', progressGoals g gl s f = some f' ∧ f'.length = g.length ∧ ∀ i < g.length, (f'[i]? = some true ↔ f[i]? = some true ∨ (i ∈ gl ∧ ¬g.L i s)) := by
  obtain ⟨f', h1, h2, h3⟩ := foldlM_set (progressGoal g s) g.length id (fun i => ¬g.L i s) gl f hf hgl (by
    intro i hi f1 hf1
    have hlt := hgl i hi
    obtain ⟨b, k1, k2⟩ := node_spec hg hs (List.getElem?_eq_getElem hlt)
    refine ⟨!b, ?_, by rw [← k2]; simp⟩
    unfold progressGoal
    rw [List.getElem?_eq_getElem hlt]
    simp only [k1]
    cases b
    · simp [write_some true (by omega : i < f1.length)]
    · simp)
  refine ⟨f', h1, h2, fun i hi => ?_⟩
  rw [h3 i hi]
  refine or_congr Iff.rfl ?_
  constructor
  · rintro ⟨x, hx, rfl, h⟩; exact ⟨hx, h⟩
  · rintro ⟨hx, h⟩; exact ⟨i, hx, rfl, h⟩

theorem gnChildren_spec {s : State} (hs : t.ValidState s) {i : Nat} {n : Node} (hn : g[i]? = some n) {past : Bits} : ∀ (cs : List Nat), (∀ c ∈ cs, c < past.length) →
    ∃ b, progressGnChildren n.landmark s past cs = some b ∧ (b = true ↔ ∃ c ∈ cs, past[c]? = some false ∧ ¬g.L i s)
  | [], _ => ⟨false, rfl, by simp⟩
  | c :: cs, h => by
    obtain ⟨b, h1, h2⟩ := node_spec hg hs hn
    obtain ⟨b', h3, h4⟩ := gnChildren_spec hs hn cs (fun q hq => h q (by simp [hq]))
    unfold progressGnChildren
    rcases bit_cases (h c (by simp)) with e | e
    · rw [e]
      exact ⟨b', h3, by rw [h4]; simp [e]⟩
    · rw [e, h1]
      cases b with
      | true => exact ⟨b', h3, by rw [h4]; simp [h2.mp rfl]⟩
      | false =>
        have : ¬g.L i s := fun h => by simpa using h2.mpr h
        exact ⟨true, rfl, by simp [this, e]⟩

theorem gn_pass {s : State} (hs : t.ValidState s) {gn : List (Nat × List Nat)} (hgn : ∀ x ∈ gn, x.1 < g.length ∧ ∀ c ∈ x.2, c < g.length) {p f : Bits} (hp : p.length = g.length) (hf : f.length = g.length) :
    ∃ f', progressGreedyNecessaryOrderings g gn s p f = some f' ∧ f'.length = g.length ∧ ∀ i < g.length,
      (f'[i]? = some true ↔ f[i]? = some true ∨ ∃ x ∈ gn, x.1 = i ∧ ∃ c ∈ x.2, p[c]? = some false ∧ ¬g.L i s) := by
  obtain ⟨f', h1, h2, h3⟩ := foldlM_set (progressGnTail g s p) g.length (·.1) (fun x => ∃ c ∈ x.2, p[c]? = some false ∧ ¬g.L x.1 s) gn f hf (fun x hx => (hgn x hx).1) (by
    intro x hx f1 hf1
    obtain ⟨hlt, hcs⟩ := hgn x hx
    have hn : g[x.1]? = some g[x.1] := List.getElem?_eq_getElem hlt
    obtain ⟨b, k1, k2⟩ := gnChildren_spec hg hs hn (past := p) x.2 (fun c hc => by rw [hp]; exact hcs c hc)
    refine ⟨b, ?_, k2⟩
    unfold progressGnTail
    rw [hn]
    simp only [k1]
    cases b
    · simp
    · simp [write_some true (by omega : x.1 < f1.length)])
  refine ⟨f', h1, h2, fun i hi => ?_⟩
  rw [h3 i hi]
  refine or_congr Iff.rfl ?_
  constructor
  · rintro ⟨x, hx, rfl, h⟩; exact ⟨x, hx, rfl, h⟩
  · rintro ⟨x, hx, rfl, h⟩; exact ⟨x, hx, rfl, h⟩

omit hg in
theorem someNotPast_spec {past : Bits} : ∀ (cs : List Nat), (∀ c ∈ cs, c < past.length) → ∃ b, someNotPast past cs = some b ∧ (b = true ↔ ∃ c ∈ cs, past[c]? = some false)
  | [], _ => ⟨false, rfl, by simp⟩
  | c :: cs, h => by
    obtain ⟨b', h3, h4⟩ := someNotPast_spec cs (fun q hq => h q (by simp [hq]))
    unfold someNotPast
    rcases bit_cases (h c (by simp)) with e | e
    · rw [e]
      exact ⟨b', h3, by rw [h4]; simp [e]⟩
    · rw [e]
      exact ⟨true, rfl, by simp [e]⟩

omit hg in
theorem reasonable_pass {rp : List (Nat × List Nat)} (hrp : ∀ x ∈ rp, x.1 < g.length ∧ ∀ c ∈ x.2, c < g.length) {p f : Bits} (hp : p.length = g.length) (hf : f.length = g.length) :
    ∃ f', progressReasonableOrderings rp p f = some f' ∧ f'.length = g.length ∧ ∀ i < g.length,
      (f'[i]? = some true ↔ f[i]? = some true ∨ ∃ x ∈ rp, x.1 = i ∧ ∃ c ∈ x.2, p[c]? = some false) := by
  obtain ⟨f', h1, h2, h3⟩ := foldlM_set (progressReasonableHead p) g.length (·.1) (fun x => ∃ c ∈ x.2, p[c]? = some false) rp f hf (fun x hx => (hrp x hx).1) (by
    intro x hx f1 hf1
    obtain ⟨hlt, hcs⟩ := hrp x hx
    obtain ⟨b, k1, k2⟩ := someNotPast_spec (past := p) x.2 (fun c hc => by rw [hp]; exact hcs c hc)
    refine ⟨b, ?_, k2⟩
    unfold progressReasonableHead
    rw [k1]
    cases b
    · simp
    · simp [write_some true (by omega : x.1 < f1.length)])
  exact ⟨f', h1, h2, h3⟩

end Verif.Landmarks
