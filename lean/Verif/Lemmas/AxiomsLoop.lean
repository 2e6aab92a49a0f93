import Verif.Lemmas.Axioms

namespace Verif.Axioms

/-! ### the Horn loop -/

theorem pop_core {t : Task} {k : Nat} {s0 : State} {P : List Fact} {st : St} {lit : Fact} {q : List Fact}
    (hq : st.queue = lit :: q) (hc : Core t k s0 P st) :
    Core t k s0 (lit :: P) { st with queue := q } := by
  have hmem : ∀ f, (f ∈ lit :: P ∨ f ∈ q) ↔ (f ∈ P ∨ f ∈ st.queue) := by
    intro f; rw [hq]; simp only [List.mem_cons]
    constructor
    · rintro ((h | h) | h)
      · exact Or.inr (Or.inl h)
      · exact Or.inl h
      · exact Or.inr (Or.inr h)
    · rintro (h | h | h)
      · exact Or.inl (Or.inr h)
      · exact Or.inl (Or.inl h)
      · exact Or.inr h
  refine ⟨hc.valid, hc.base, hc.range, ?_, ?_, ?_, hc.closed⟩
  · intro f; rw [← hc.lits f]; exact hmem f
  · have := hc.nodup
    rw [hq, (List.perm_middle (a := lit) (l₁ := P) (l₂ := q)).nodup_iff] at this
    exact this
  · intro f h1 h2 h3
    exact Derives.mono (fun c h => (hmem c).mpr h) (hc.deriv f h1 h2 h3)

theorem pop_cnt {t : Task} {k : Nat} {s0 : State} {P : List Fact} {st : St} {lit : Fact} {q : List Fact}
    (hq : st.queue = lit :: q) (hc : Core t k s0 P st) (hn : Cnt t P [] st) :
    Cnt t (lit :: P) (conditionOf t.rules lit) { st with queue := q } := by
  have hnot : lit ∉ P := by
    have := hc.nodup
    rw [hq, (List.perm_middle (a := lit) (l₁ := P) (l₂ := q)).nodup_iff, List.nodup_cons] at this
    intro h; exact this.1 (by simp [h])
  have key : ∀ i r, t.rules[i]? = some r →
      openConds (lit :: P) r + (conditionOf t.rules lit).count i = openConds P r := by
    intro i r hi
    rw [count_conditionOf, hi, openConds_cons hnot r]; rfl
  refine ⟨hn.len, ?_, ?_⟩
  · intro i r hi
    rw [key i r hi]
    have := hn.cnt i r hi
    simpa using this
  · intro i r hi h
    rw [key i r hi] at h
    exact hn.done i r hi (by simpa using h)

theorem conditionOf_lt {rules : List Rule} {lit : Fact} {i : Nat} (h : i ∈ conditionOf rules lit) : i < rules.length := by
  have := List.count_pos_iff.mpr h
  rw [count_conditionOf] at this
  rcases Nat.lt_or_ge i rules.length with h | h
  · exact h
  · rw [List.getElem?_eq_none h] at this; simp at this

theorem hornLoop_spec {t : Task} (hwf : t.WFAxioms) {k : Nat} {s0 : State} :
    ∀ (fuel : Nat) (P : List Fact) (st : St), Core t k s0 P st → Cnt t P [] st →
    st.queue.length + posCount st.unsat ≤ fuel →
    ∃ P' st', hornLoop t t.rules fuel st = some st' ∧ Core t k s0 P' st' ∧ Cnt t P' [] st' ∧ st'.queue = [] ∧
      posCount st'.unsat ≤ st.queue.length + posCount st.unsat := by
  intro fuel
  induction fuel with
  | zero =>
    intro P st hc hn hf
    have : st.queue = [] := List.eq_nil_of_length_eq_zero (by omega)
    refine ⟨P, st, ?_, hc, hn, this, by omega⟩
    unfold hornLoop; rw [this]
  | succ fuel ih =>
    intro P st hc hn hf
    cases hq : st.queue with
    | nil =>
      refine ⟨P, st, ?_, hc, hn, hq, by omega⟩
      unfold hornLoop; rw [hq]
    | cons lit q =>
      obtain ⟨st1, e1, c1, n1, q1⟩ := trigger_spec hwf (conditionOf t.rules lit) { st with queue := q }
        (pop_core hq hc) (pop_cnt hq hc hn) (fun i hi => conditionOf_lt hi)
      simp only at q1
      rw [hq] at hf
      simp only [List.length_cons] at hf ⊢
      obtain ⟨P', st', e, c, n, hqe, hp⟩ := ih (lit :: P) st1 c1 n1 (by omega)
      refine ⟨P', st', ?_, c, n, hqe, by omega⟩
      unfold hornLoop; rw [hq]
      simp only [e1, Option.bind_eq_bind, Option.bind_some]
      exact e

/-! ### moving to the next layer -/

theorem pushNbf_spec : ∀ (fs : List Fact) (st : St), (∀ f ∈ fs, f.var < st.values.length) →
    ∃ st', pushNbf fs st = some st' ∧ st'.values = st.values ∧ st'.unsat = st.unsat ∧
      (∀ f, f ∈ st'.queue ↔ f ∈ st.queue ∨ (f ∈ fs ∧ f.holds st.values)) ∧
      (fs.Nodup → st.queue.Nodup → (∀ f ∈ fs, f ∉ st.queue) → st'.queue.Nodup) ∧
      st'.queue.length ≤ st.queue.length + fs.length := by
  intro fs
  induction fs with
  | nil => intro st _; exact ⟨st, rfl, rfl, rfl, by simp, fun _ h _ => h, by simp⟩
  | cons f fs ih =>
    intro st hlt
    have hx := List.getElem?_eq_getElem (hlt f (by simp))
    generalize st.values[f.var]'(hlt f (by simp)) = x at hx
    unfold pushNbf
    simp only [hx, Option.bind_eq_bind, Option.bind_some]
    by_cases hxv : x = f.val
    · rw [if_pos hxv]
      obtain ⟨st', e, h1, h2, h3, h4, h5⟩ := ih { st with queue := f :: st.queue } (fun g hg => hlt g (by simp [hg]))
      have hh : f.holds st.values := by unfold Fact.holds; rw [hx, hxv]
      refine ⟨st', e, h1, h2, ?_, ?_, by simp at h5 ⊢; omega⟩
      · intro g
        rw [h3 g]; simp only [List.mem_cons]
        constructor
        · rintro ((h | h) | ⟨h, h'⟩)
          · subst h; exact Or.inr ⟨Or.inl rfl, hh⟩
          · exact Or.inl h
          · exact Or.inr ⟨Or.inr h, h'⟩
        · rintro (h | ⟨h | h, h'⟩)
          · exact Or.inl (Or.inr h)
          · exact Or.inl (Or.inl h)
          · exact Or.inr ⟨h, h'⟩
      · intro g1 g2 g3
        rw [List.nodup_cons] at g1
        apply h4 g1.2
        · simp only [List.nodup_cons]; exact ⟨g3 f (by simp), g2⟩
        · intro g hg hm
          rcases List.mem_cons.mp hm with h | h
          · subst h; exact g1.1 hg
          · exact g3 g (by simp [hg]) h
    · rw [if_neg hxv]
      obtain ⟨st', e, h1, h2, h3, h4, h5⟩ := ih st (fun g hg => hlt g (by simp [hg]))
      have hh : ¬ f.holds st.values := by
        unfold Fact.holds; rw [hx]; intro h; exact hxv (Option.some.inj h)
      refine ⟨st', e, h1, h2, ?_, ?_, by simp; omega⟩
      · intro g
        rw [h3 g]; simp only [List.mem_cons]
        constructor
        · rintro (h | ⟨h, h'⟩)
          · exact Or.inl h
          · exact Or.inr ⟨Or.inr h, h'⟩
        · rintro (h | ⟨h | h, h'⟩)
          · exact Or.inl h
          · subst h; exact absurd h' hh
          · exact Or.inr ⟨h, h'⟩
      · intro g1 g2 g3
        exact h4 (List.nodup_cons.mp g1).2 g2 (fun g hg => g3 g (by simp [hg]))

theorem mem_nbfInfo {t : Task} {k : Nat} {f : Fact} :
    f ∈ nbfInfo t k ↔ t.layerOf f.var = some k ∧ f.val = t.defaultOf f.var ∧ k + 1 ≠ numLayers t := by
  unfold nbfInfo
  simp only [List.mem_filterMap, Prod.exists]
  constructor
  · rintro ⟨d, v, hm, he⟩
    have hv : t.vars[v]? = some d := by
      have := List.mem_zipIdx_iff_getElem?.mp hm
      simpa using this
    cases hl : d.layer with
    | none => simp [hl] at he
    | some ℓ =>
      simp only [hl] at he
      by_cases h : ℓ = k ∧ ℓ + 1 ≠ numLayers t
      · rw [if_pos h] at he
        cases he
        exact ⟨by rw [layerOf_eq hv, hl, h.1], by rw [defaultOf_eq hv], by rw [← h.1]; exact h.2⟩
      · rw [if_neg h] at he; cases he
  · rintro ⟨h1, h2, h3⟩
    unfold Task.layerOf at h1
    cases hv : t.vars[f.var]? with
    | none => simp [hv] at h1
    | some d =>
      simp [hv] at h1
      refine ⟨d, f.var, ?_, ?_⟩
      · rw [List.mem_zipIdx_iff_getElem?]; simpa using hv
      · simp only [h1]
        rw [if_pos ⟨trivial, h3⟩]
        rw [defaultOf_eq hv] at h2
        obtain ⟨a, b⟩ := f
        simp at h2 ⊢; exact h2.symm

theorem nodup_nbfInfo (t : Task) (k : Nat) : (nbfInfo t k).Nodup := by
  unfold nbfInfo
  have h1 : (t.vars.zipIdx).Pairwise (fun a b => a.2 ≠ b.2) := by
    have : (t.vars.zipIdx.map Prod.snd).Nodup := by
      rw [List.zipIdx_map_snd]; exact List.nodup_range'
    exact List.pairwise_map.mp this
  have := List.Pairwise.filterMap (fun p : Variable × Nat =>
    match p.1.layer with
    | some ℓ => if ℓ = k ∧ ℓ + 1 ≠ numLayers t then some (⟨p.2, p.1.default⟩ : Fact) else none
    | none => none) (S := fun a b => a ≠ b) ?_ h1
  · exact this
  · intro a a' hne b hb b' hb' hbb
    subst hbb
    apply hne
    have aux : ∀ (p : Variable × Nat), (match p.1.layer with
      | some ℓ => if ℓ = k ∧ ℓ + 1 ≠ numLayers t then some (⟨p.2, p.1.default⟩ : Fact) else none
      | none => none) = some b → p.2 = b.var := by
      intro p hp
      cases hl : p.1.layer with
      | none => simp [hl] at hp
      | some ℓ =>
        simp only [hl] at hp
        split at hp
        · cases hp; rfl
        · cases hp
    rw [aux a hb, aux a' hb']

theorem length_nbfInfo (t : Task) (k : Nat) : (nbfInfo t k).length ≤ t.vars.length := by
  unfold nbfInfo
  refine Nat.le_trans (List.length_filterMap_le _ _) ?_
  simp

theorem numLayers_aux : ∀ (l : List Variable) (m : Nat),
    let n := l.foldl (fun m v => match v.layer with | some ℓ => max m (ℓ + 1) | none => m) m
    m ≤ n ∧ ∀ v ∈ l, ∀ ℓ, v.layer = some ℓ → ℓ < n := by
  intro l
  induction l with
  | nil => intro m; simp
  | cons v l ih =>
    intro m
    simp only [List.foldl_cons]
    have := ih (match v.layer with | some ℓ => max m (ℓ + 1) | none => m)
    simp only at this
    obtain ⟨h1, h2⟩ := this
    have hm : m ≤ (match v.layer with | some ℓ => max m (ℓ + 1) | none => m) := by
      split <;> omega
    refine ⟨by omega, ?_⟩
    intro w hw ℓ hl
    rcases List.mem_cons.mp hw with h | h
    · subst h
      rw [hl] at h1 ⊢
      simp only at h1 ⊢
      omega
    · exact h2 w h ℓ hl

theorem layer_lt_numLayers {t : Task} {v ℓ : Nat} (h : t.layerOf v = some ℓ) : ℓ < numLayers t := by
  unfold Task.layerOf at h
  cases hv : t.vars[v]? with
  | none => simp [hv] at h
  | some d =>
    simp [hv] at h
    exact (numLayers_aux t.vars 0).2 d (List.mem_of_getElem? hv) ℓ h

/-- Once a layer's loop is finished, its default facts become known. -/
theorem next_layer {t : Task} (hwf : t.WFAxioms) {k : Nat} {s0 : State} {P : List Fact} {st : St}
    (hc : Core t k s0 P st) (hn : Cnt t P [] st) (hq : st.queue = []) (hk : k + 1 ≠ numLayers t) :
    ∃ st', pushNbf (nbfInfo t k) st = some st' ∧ Core t (k + 1) s0 P st' ∧ Cnt t P [] st' ∧
      st'.unsat = st.unsat ∧ st'.queue.length ≤ t.vars.length := by
  obtain ⟨st', e, h1, h2, h3, h4, h5⟩ := pushNbf_spec (nbfInfo t k) st (by
    intro f hf
    have := (mem_nbfInfo.mp hf).1
    rw [hc.valid.1]
    rcases Nat.lt_or_ge f.var t.vars.length with h | h
    · exact h
    · rw [layerOf_none_of_ge h] at this; cases this)
  have hlit : ∀ f, (f ∈ P ∨ f ∈ st'.queue) ↔ Lit t (k + 1) st'.values f := by
    intro f
    rw [h3 f, hq, h1]
    have hP : f ∈ P ↔ Lit t k st.values f := by rw [← hc.lits f, hq]; simp
    rw [hP, mem_nbfInfo]
    unfold Lit
    constructor
    · rintro (⟨g1, g2⟩ | g | ⟨⟨g1, g2, g3⟩, g4⟩)
      · refine ⟨g1, ?_⟩
        rcases g2 with g | ⟨ℓ, g, g'⟩
        · exact Or.inl g
        · exact Or.inr ⟨ℓ, g, by rcases g' with g' | g'; exact Or.inl g'; right; omega⟩
      · simp at g
      · exact ⟨g4, Or.inr ⟨k, g1, Or.inr (by omega)⟩⟩
    · rintro ⟨g1, g | ⟨ℓ, g, g'⟩⟩
      · exact Or.inl ⟨g1, Or.inl g⟩
      · by_cases hd : f.val = t.defaultOf f.var
        · rcases g' with g' | g'
          · exact absurd hd g'
          · by_cases hlk : ℓ = k
            · subst hlk; right; right; exact ⟨⟨g, hd, hk⟩, g1⟩
            · left; exact ⟨g1, Or.inr ⟨ℓ, g, Or.inr (by omega)⟩⟩
        · left; exact ⟨g1, Or.inr ⟨ℓ, g, Or.inl hd⟩⟩
  have hmono : ∀ c, (c ∈ P ∨ c ∈ st.queue) → (c ∈ P ∨ c ∈ st'.queue) := by
    rintro c (h | h)
    · exact Or.inl h
    · rw [hq] at h; simp at h
  refine ⟨st', e, ⟨by rw [h1]; exact hc.valid, by rw [h1]; exact hc.base, by rw [h1]; exact hc.range, hlit, ?_, ?_, ?_⟩,
    ⟨by rw [h2]; exact hn.len, by rw [h2]; exact hn.cnt, by rw [h1]; exact hn.done⟩, h2, ?_⟩
  · have hnd := hc.nodup
    rw [hq, List.append_nil] at hnd
    rw [List.nodup_append]
    refine ⟨hnd, h4 (nodup_nbfInfo t k) (by rw [hq]; simp) (by rw [hq]; simp), ?_⟩
    intro a ha b hb hab
    subst hab
    rw [h3, hq] at hb
    rcases hb with hb | ⟨hb, _⟩
    · simp at hb
    · obtain ⟨g1, g2, _⟩ := mem_nbfInfo.mp hb
      obtain ⟨_, g⟩ := (hc.lits a).mp (Or.inl ha)
      rcases g with g | ⟨ℓ, g, g'⟩
      · rw [g1] at g; cases g
      · rw [g1] at g; cases g
        rcases g' with g' | g'
        · exact g' g2
        · omega
  · intro f g1 g2 g3
    rw [h1] at g3
    exact Derives.mono hmono (hc.deriv f g1 g2 g3)
  · intro r hr ℓ hℓ hlt hv
    rw [h1] at hv ⊢
    by_cases hlk : ℓ < k
    · obtain ⟨c, hcb, hnh, hcl⟩ := hc.closed r hr ℓ hℓ hlk hv
      refine ⟨c, hcb, hnh, ?_⟩
      rcases hcl with g | ⟨ℓc, g1, g2⟩
      · exact Or.inl g
      · exact Or.inr ⟨ℓc, g1, by omega⟩
    · have hlk : ℓ = k := by omega
      subst hlk
      -- the head is not set, so some condition was never processed
      by_cases hall : ∀ c ∈ r.body, c ∈ P
      · exfalso
        obtain ⟨i, hi⟩ := List.mem_iff_getElem?.mp hr
        have := hn.done i r hi (by simp [openConds_zero.mpr hall])
        unfold Fact.holds at this
        rw [hv] at this
        exact hwf.headNonDefault r hr (Option.some.inj this).symm
      · have hex : ∃ c ∈ r.body, c ∉ P := by
          apply Classical.byContradiction
          intro hno
          apply hall
          intro c hcb
          apply Classical.byContradiction
          intro hcp; exact hno ⟨c, hcb, hcp⟩
        obtain ⟨c, hcb, hcp⟩ := hex
        have hnl : ¬ Lit t ℓ st.values c := by
          rw [← hc.lits c, hq]; simp [hcp]
        refine ⟨c, hcb, ?_, ?_⟩
        · intro hh
          apply hnl
          refine ⟨hh, ?_⟩
          cases hcl : t.layerOf c.var with
          | none => exact Or.inl rfl
          | some ℓc =>
            right
            refine ⟨ℓc, rfl, ?_⟩
            by_cases hd : c.val = t.defaultOf c.var
            · exact Or.inr (hwf.stratNeg r hr c hcb ℓc ℓ hcl hℓ hd)
            · exact Or.inl hd
        · cases hcl : t.layerOf c.var with
          | none => exact Or.inl rfl
          | some ℓc =>
            right
            have := hwf.stratPos r hr c hcb ℓc ℓ hcl hℓ
            exact ⟨ℓc, rfl, by omega⟩
  · have := length_nbfInfo t k
    rw [hq] at h5; simp at h5; omega

theorem layerLoop_spec {t : Task} (hwf : t.WFAxioms) {s0 : State} {fuel : Nat} (hfuel : t.vars.length + 2 * t.rules.length ≤ fuel) :
    ∀ (n k : Nat) (P : List Fact) (st : St), k + (n + 1) = numLayers t → Core t k s0 P st → Cnt t P [] st →
    st.queue.length + posCount st.unsat ≤ fuel →
    ∃ P' st', layerLoop t t.rules fuel (n + 1) k st = some st' ∧ Core t (numLayers t - 1) s0 P' st' ∧
      Cnt t P' [] st' ∧ st'.queue = [] := by
  intro n
  induction n with
  | zero =>
    intro k P st hk hc hn hf
    obtain ⟨P', st', e, c, n', hqe, hp⟩ := hornLoop_spec hwf fuel P st hc hn hf
    refine ⟨P', st', ?_, ?_, n', hqe⟩
    · unfold layerLoop
      simp [e, layerLoop]
    · have : numLayers t - 1 = k := by omega
      rw [this]; exact c
  | succ n ih =>
    intro k P st hk hc hn hf
    obtain ⟨P', st', e, c, n', hqe, hp⟩ := hornLoop_spec hwf fuel P st hc hn hf
    obtain ⟨st2, e2, c2, n2, u2, q2⟩ := next_layer hwf c n' hqe (by omega)
    have hpc : posCount st2.unsat ≤ t.rules.length := by
      unfold posCount
      refine Nat.le_trans List.countP_le_length ?_
      rw [n2.len]; exact Nat.le_refl _
    obtain ⟨P3, st3, e3, c3, n3, q3⟩ := ih (k + 1) P' st2 (by omega) c2 n2 (by omega)
    refine ⟨P3, st3, ?_, c3, n3, q3⟩
    unfold layerLoop
    simp only [e, Option.bind_eq_bind, Option.bind_some]
    rw [if_pos (by omega)]
    simp only [e2, Option.bind_some]
    exact e3

/-! ### the whole evaluation -/

theorem openConds_nil (r : Rule) : openConds [] r = r.body.length := by simp [openConds]

theorem core_stable {t : Task} (hwf : t.WFAxioms) {s0 : State} (hs0 : t.ValidState s0) {P : List Fact} {st : St}
    (hc : Core t (numLayers t - 1) s0 P st) (hn : Cnt t P [] st) (hq : st.queue = []) :
    StableModel t s0 st.values := by
  have hneg : ∀ c, (c ∈ P ∨ c ∈ st.queue) → c.holds st.values := fun c h => ((hc.lits c).mp h).1
  have hposr : ∀ f, Derives t s0 (fun c => c.holds st.values) f → f.holds st.values := by
    intro f d
    induction d with
    | rule r hr hb hng hp ih =>
      obtain ⟨i, hi⟩ := List.mem_iff_getElem?.mp hr
      obtain ⟨ℓ, hℓ⟩ := Option.ne_none_iff_exists'.mp (hwf.headDerived r hr)
      have hlt := layer_lt_numLayers hℓ
      apply hn.done i r hi
      simp only [List.count_nil, Nat.add_zero]
      rw [openConds_zero]
      intro c hcb
      have : c ∈ P ∨ c ∈ st.queue := by
        rw [hc.lits c]
        cases hcl : t.layerOf c.var with
        | none =>
          refine ⟨?_, Or.inl hcl⟩
          unfold Fact.holds
          rw [hc.base _ hcl]; exact hb c hcb hcl
        | some ℓc =>
          by_cases hd : c.val = t.defaultOf c.var
          · exact ⟨hng c hcb (by rw [hcl]; simp) hd, Or.inr ⟨ℓc, hcl, Or.inr (by
              have := hwf.stratNeg r hr c hcb ℓc ℓ hcl hℓ hd
              omega)⟩⟩
          · exact ⟨ih c hcb (by rw [hcl]; simp) hd, Or.inr ⟨ℓc, hcl, Or.inl hd⟩⟩
      rcases this with h | h
      · exact h
      · rw [hq] at h; simp at h
  refine ⟨by rw [hc.valid.1, hs0.1], hc.base, ?_, ?_⟩
  · intro f h1 h2
    exact ⟨fun h => Derives.mono hneg (hc.deriv f h1 h2 h), hposr f⟩
  · intro v hv
    constructor
    · intro hno
      have hlt : v < st.values.length := by
        rw [hc.valid.1]
        rcases Nat.lt_or_ge v t.vars.length with h | h
        · exact h
        · exact absurd (layerOf_none_of_ge h) hv
      have hx := List.getElem?_eq_getElem hlt
      generalize st.values[v] = x at hx
      rw [hx]
      apply Classical.byContradiction
      intro hne
      have hxd : x ≠ t.defaultOf v := fun h => hne (by rw [h])
      exact hno x hxd (Derives.mono hneg (hc.deriv ⟨v, x⟩ hv hxd hx))
    · intro hd x hx hder
      have := hposr _ hder
      unfold Fact.holds at this
      simp only at this
      rw [hd] at this
      exact hx (Option.some.inj this).symm

theorem evaluate_spec {t : Task} (hwf : t.WFAxioms) {s : State} (hs : t.ValidState s) :
    ∃ s', evaluate t s = some s' ∧ t.ValidState s' ∧ StableModel t s s' := by
  unfold evaluate
  by_cases hax : t.axioms.length > 0
  · rw [if_pos hax]
    simp only [mkRules_eq hwf.single, Option.bind_eq_bind, Option.bind_some]
    obtain ⟨st0, e0, u0, v0, b0, d0, q0, nd0, ql0⟩ := initLoop_spec t t.vars 0
      { values := s, unsat := t.rules.map (fun r => (r.body.length : Int)), queue := [] } (by simp) (by omega) hs hwf
      (by simp) (by simp)
    have hd : defaultValues t = t.vars.map (fun v => if v.layer.isSome then some v.default else none) := rfl
    rw [hd]
    simp only [e0, Option.bind_some]
    have hcore0 : Core t 0 s [] st0 := by
      refine ⟨v0, fun v hv => b0 v (Or.inr hv), ?_, ?_, by simpa using nd0, ?_, ?_⟩
      · intro v x hv hx
        rw [d0 v (by omega) hv] at hx
        left; exact (Option.some.inj hx).symm
      · intro f
        rw [q0 f]
        unfold Lit Fact.holds
        simp only [List.not_mem_nil, false_or, Nat.zero_le, true_and]
        constructor
        · rintro ⟨h1, h2⟩
          exact ⟨by rw [b0 _ (Or.inr h1)]; exact h2, Or.inl h1⟩
        · rintro ⟨h1, h2 | ⟨ℓ, h2, h3⟩⟩
          · exact ⟨h2, by rw [b0 _ (Or.inr h2)] at h1; exact h1⟩
          · exfalso
            rw [d0 _ (by omega) (by rw [h2]; simp)] at h1
            rcases h3 with h3 | h3
            · exact h3 (Option.some.inj h1).symm
            · omega
      · intro f h1 h2 h3
        unfold Fact.holds at h3
        rw [d0 _ (by omega) h1] at h3
        exact absurd (Option.some.inj h3).symm h2
      · intro r _ ℓ _ h; omega
    obtain ⟨st1, e1, c1, m1, h1, u1, ql1⟩ := emptyRules_spec hwf t.rules st0 (fun _ h => h) hcore0
    simp only [e1, Option.bind_some]
    have hcnt : Cnt t [] [] st1 := by
      refine ⟨by rw [u1, u0]; simp, ?_, ?_⟩
      · intro i r hi
        rw [u1, u0]
        simp [hi, openConds_nil]
      · intro i r hi hz
        apply h1 r (List.mem_of_getElem? hi)
        exact List.eq_nil_of_length_eq_zero (by simpa [openConds_nil] using hz)
    have hrne : t.rules ≠ [] := by
      cases hal : t.axioms with
      | nil => rw [hal] at hax; simp at hax
      | cons a l =>
        obtain ⟨e, he⟩ := hwf.single a (by rw [hal]; simp)
        simp [Task.rules, hal, he]
    obtain ⟨r, hr⟩ := List.exists_mem_of_ne_nil _ hrne
    obtain ⟨ℓ, hℓ⟩ := Option.ne_none_iff_exists'.mp (hwf.headDerived r hr)
    have hnl := layer_lt_numLayers hℓ
    have hpc : posCount st1.unsat ≤ t.rules.length := by
      unfold posCount
      refine Nat.le_trans List.countP_le_length ?_
      rw [hcnt.len]; exact Nat.le_refl _
    simp only [List.length_nil] at ql0
    obtain ⟨P2, st2, e2, c2, n2, q2⟩ := layerLoop_spec hwf (s0 := s) (fuel := t.vars.length + 2 * t.rules.length + 1) (by omega)
      (numLayers t - 1) 0 [] st1 (by omega) c1 hcnt (by omega)
    have : numLayers t = numLayers t - 1 + 1 := by omega
    rw [this, e2]
    exact ⟨st2.values, rfl, c2.valid, core_stable hwf hs c2 n2 q2⟩
  · rw [if_neg hax]
    have hnil : t.axioms = [] := List.eq_nil_of_length_eq_zero (by omega)
    have hno := hwf.someAxioms hnil
    exact ⟨s, rfl, hs, rfl, fun _ _ => rfl, fun f h => absurd (hno _) h, fun v h => absurd (hno _) h⟩

end Verif.Axioms
