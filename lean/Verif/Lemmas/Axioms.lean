import Verif.Model.Axioms

namespace Verif.Axioms

theorem Derives.mono {t : Task} {s : State} {n₁ n₂ : Fact → Prop} (h : ∀ c, n₁ c → n₂ c) {f : Fact}
    (d : Derives t s n₁ f) : Derives t s n₂ f := by
  induction d with
  | rule r hr hb hn _ ih => exact Derives.rule r hr hb (fun c hc h1 h2 => h c (hn c hc h1 h2)) ih

/-! ### rules and condition lists -/

theorem mkRules_eq {t : Task} (h : ∀ a ∈ t.axioms, ∃ e, a.effects = [e]) : mkRules t = some t.rules := by
  unfold mkRules Task.rules
  generalize t.axioms = l at h
  induction l with
  | nil => rfl
  | cons a l ih =>
    obtain ⟨e, he⟩ := h a (by simp)
    rw [List.mapM_cons, ih (fun a' h' => h a' (by simp [h']))]
    simp [he]

theorem count_condAux (lit : Fact) : ∀ (rules : List Rule) (k i : Nat),
    ((rules.zipIdx k).flatMap (fun p => (p.1.body.filter (· = lit)).map (fun _ => p.2))).count i =
      if k ≤ i then ((rules[i - k]?).map (fun r => (r.body.filter (· = lit)).length)).getD 0 else 0 := by
  intro rules
  induction rules with
  | nil => intro k i; simp
  | cons r rs ih =>
    intro k i
    rw [List.zipIdx_cons, List.flatMap_cons, List.count_append, ih]
    have h1 : ((r.body.filter (· = lit)).map (fun _ => k)).count i =
        if k = i then (r.body.filter (· = lit)).length else 0 := by
      by_cases hk : k = i
      · subst hk; simp [List.map_const', List.count_replicate]
      · rw [if_neg hk]
        simp [List.map_const', List.count_replicate, hk]
    rw [h1]
    by_cases hk : k = i
    · subst hk; simp
      omega
    · by_cases hlt : k ≤ i
      · have e : i - k = (i - (k + 1)) + 1 := by omega
        rw [if_neg hk, if_pos (by omega), if_pos hlt, e]
        simp
      · rw [if_neg hk, if_neg (by omega), if_neg hlt]

theorem count_conditionOf (rules : List Rule) (lit : Fact) (i : Nat) :
    (conditionOf rules lit).count i = ((rules[i]?).map (fun r => (r.body.filter (· = lit)).length)).getD 0 := by
  unfold conditionOf
  rw [count_condAux]; simp

/-! ### initLoop -/

theorem layerOf_eq {t : Task} {v : Nat} {d : Variable} (h : t.vars[v]? = some d) : t.layerOf v = d.layer := by
  simp [Task.layerOf, h]

theorem defaultOf_eq {t : Task} {v : Nat} {d : Variable} (h : t.vars[v]? = some d) : t.defaultOf v = d.default := by
  simp [Task.defaultOf, h]

theorem literal_eq {t : Task} {f : Fact} (h : t.ValidFact f) : literal t f = some f := by
  obtain ⟨d, h1, h2⟩ := h
  simp [literal, h1, h2]

theorem layerOf_none_of_ge {t : Task} {v : Nat} (h : t.vars.length ≤ v) : t.layerOf v = none := by
  simp [Task.layerOf, List.getElem?_eq_none h]

/-- What `initLoop` computes from variable `v` on. -/
theorem initLoop_spec (t : Task) : ∀ (ds : List Variable) (v : Nat) (st : St),
    t.vars.drop v = ds → v ≤ t.vars.length → t.ValidState st.values →
    (t.WFAxioms) →
    st.queue.Nodup → (∀ f ∈ st.queue, f.var < v) →
    ∃ st', initLoop t (ds.map (fun v => if v.layer.isSome then some v.default else none)) v st = some st' ∧
      st'.unsat = st.unsat ∧ t.ValidState st'.values ∧
      (∀ w, (w < v ∨ t.layerOf w = none) → st'.values[w]? = st.values[w]?) ∧
      (∀ w, v ≤ w → t.layerOf w ≠ none → st'.values[w]? = some (t.defaultOf w)) ∧
      (∀ f, f ∈ st'.queue ↔ f ∈ st.queue ∨ (v ≤ f.var ∧ t.layerOf f.var = none ∧ f.holds st.values)) ∧
      st'.queue.Nodup ∧ st'.queue.length ≤ st.queue.length + ds.length := by
  intro ds
  induction ds with
  | nil =>
    intro v st hd hv hval hwf hnd hq
    have hvl : v = t.vars.length := by
      have := congrArg List.length hd
      simp at this; omega
    refine ⟨st, rfl, rfl, hval, fun _ _ => rfl, ?_, ?_, hnd, by simp⟩
    · intro w hw hl
      exact absurd (layerOf_none_of_ge (by omega)) hl
    · intro f
      constructor
      · intro h; left; exact h
      · rintro (h | ⟨h1, _, h3⟩)
        · exact h
        · exfalso
          unfold Fact.holds at h3
          rw [List.getElem?_eq_none (by rw [hval.1]; omega)] at h3
          simp at h3
  | cons d ds ih =>
    intro v st hd hv hval hwf hnd hq
    have hlt : v < t.vars.length := by
      have := congrArg List.length hd
      simp at this; omega
    have hdv : t.vars[v]? = some d := by
      have := congrArg (fun l => l[0]?) hd
      simpa using this
    have hdrop : t.vars.drop (v + 1) = ds := by
      have := congrArg List.tail hd
      rw [List.tail_drop] at this
      simpa using this
    have hlay := layerOf_eq hdv
    have hdef := defaultOf_eq hdv
    have hsl : v < st.values.length := by rw [hval.1]; exact hlt
    simp only [List.map_cons]
    by_cases hder : d.layer.isSome
    · simp only [hder, if_true, initLoop, hsl]
      have hval1 : t.ValidState (st.values.set v d.default) := by
        refine ⟨by simp [hval.1], ?_⟩
        intro w x dw hw hdw
        rw [List.getElem?_set] at hw
        by_cases h : v = w
        · subst h
          simp [hsl] at hw
          rw [hdv] at hdw; cases hdw
          rw [← hw]
          exact hwf.validDefault v d hdv (by intro e; rw [e] at hder; simp at hder)
        · simp [h] at hw
          exact hval.2 w x dw hw hdw
      obtain ⟨st', e, h1, h2, h3, h4, h5, h6, h7⟩ := ih (v + 1) { st with values := st.values.set v d.default } hdrop
        (by omega) hval1 hwf hnd (fun f hf => Nat.lt_succ_of_lt (hq f hf))
      refine ⟨st', e, h1, h2, ?_, ?_, ?_, h6, by simp at h7 ⊢; omega⟩
      · intro w hw
        have hvw : v ≠ w := by
          intro h; subst h
          rcases hw with h | h
          · omega
          · rw [hlay] at h; rw [h] at hder; simp at hder
        rw [h3 w (by rcases hw with h | h; left; omega; right; exact h)]
        simp [List.getElem?_set_ne hvw]
      · intro w hw hl
        by_cases hvw : v = w
        · subst hvw
          rw [h3 v (Or.inl (by omega))]
          simp only [List.getElem?_set_self hsl, hdef]
        · exact h4 w (by omega) hl
      · intro f
        rw [h5]
        simp only [Fact.holds]
        constructor
        · rintro (h | ⟨g1, g2, g3⟩)
          · left; exact h
          · right
            rw [List.getElem?_set_ne (by omega)] at g3
            exact ⟨by omega, g2, g3⟩
        · rintro (h | ⟨g1, g2, g3⟩)
          · left; exact h
          · right
            have hvw : v ≠ f.var := by
              intro h; rw [← h, hlay] at g2; rw [g2] at hder; simp at hder
            rw [List.getElem?_set_ne hvw]
            exact ⟨by omega, g2, g3⟩
    · have hnone : d.layer = none := by simpa using hder
      obtain ⟨x, hx⟩ : ∃ x, st.values[v]? = some x := ⟨st.values[v], List.getElem?_eq_getElem hsl⟩
      have hvf : t.ValidFact ⟨v, x⟩ := ⟨d, hdv, hval.2 v x d hx hdv⟩
      simp only [hder, initLoop, hx, Option.bind_eq_bind, Option.bind_some, literal_eq hvf]
      obtain ⟨st', e, h1, h2, h3, h4, h5, h6, h7⟩ := ih (v + 1) { st with queue := ⟨v, x⟩ :: st.queue } hdrop
        (by omega) hval hwf (by
          rw [List.nodup_cons]
          refine ⟨?_, hnd⟩
          intro hmem
          have := hq _ hmem
          simp at this) (by
          intro f hf
          rcases List.mem_cons.mp hf with h | h
          · subst h; simp
          · exact Nat.lt_succ_of_lt (hq f h))
      refine ⟨st', by simpa using e, h1, h2, ?_, ?_, ?_, h6, by simp at h7 ⊢; omega⟩
      · intro w hw
        exact h3 w (by rcases hw with h | h; left; omega; right; exact h)
      · intro w hw hl
        by_cases hvw : v = w
        · subst hvw; rw [hlay] at hl; exact absurd hnone hl
        · exact h4 w (by omega) hl
      · intro f
        rw [h5]
        simp only [List.mem_cons]
        constructor
        · rintro ((h | h) | ⟨g1, g2, g3⟩)
          · subst h; right; exact ⟨Nat.le_refl _, by rw [hlay]; exact hnone, hx⟩
          · left; exact h
          · right; exact ⟨by omega, g2, g3⟩
        · rintro (h | ⟨g1, g2, g3⟩)
          · left; right; exact h
          · by_cases hvw : v = f.var
            · left; left
              unfold Fact.holds at g3
              rw [← hvw, hx] at g3
              cases f; simp at hvw g3 ⊢; exact ⟨hvw.symm, g3.symm⟩
            · right; exact ⟨by omega, g2, g3⟩

/-! ### the invariant -/

/-- The literal is known to be true at stage `k`: facts of non-derived variables, derived
non-default facts, and default facts of derived variables of finished layers. -/
def Lit (t : Task) (k : Nat) (values : State) (f : Fact) : Prop :=
  f.holds values ∧ (t.layerOf f.var = none ∨
    ∃ ℓ, t.layerOf f.var = some ℓ ∧ (f.val ≠ t.defaultOf f.var ∨ ℓ < k))

structure Core (t : Task) (k : Nat) (s0 : State) (P : List Fact) (st : St) : Prop where
  valid : t.ValidState st.values
  base : ∀ v, t.layerOf v = none → st.values[v]? = s0[v]?
  range : ∀ v x, t.layerOf v ≠ none → st.values[v]? = some x → x = t.defaultOf v ∨
    ∃ r ∈ t.rules, r.head = ⟨v, x⟩
  lits : ∀ f, (f ∈ P ∨ f ∈ st.queue) ↔ Lit t k st.values f
  nodup : (P ++ st.queue).Nodup
  deriv : ∀ f, t.layerOf f.var ≠ none → f.val ≠ t.defaultOf f.var → f.holds st.values →
    Derives t s0 (fun c => c ∈ P ∨ c ∈ st.queue) f
  closed : ∀ r ∈ t.rules, ∀ ℓ, t.layerOf r.head.var = some ℓ → ℓ < k →
    st.values[r.head.var]? = some (t.defaultOf r.head.var) →
    ∃ c ∈ r.body, ¬ c.holds st.values ∧ (t.layerOf c.var = none ∨ ∃ ℓc, t.layerOf c.var = some ℓc ∧ ℓc < k)

/-- non-default facts that hold keep holding -/
def Mono (t : Task) (a b : State) : Prop :=
  ∀ f : Fact, f.val ≠ t.defaultOf f.var → t.layerOf f.var ≠ none → f.holds a → f.holds b

theorem fire_spec {t : Task} (hwf : t.WFAxioms) {k : Nat} {s0 : State} {P : List Fact} {st : St}
    (hc : Core t k s0 P st) {r : Rule} (hr : r ∈ t.rules) (hbody : ∀ c ∈ r.body, c ∈ P) :
    ∃ st', fire t r st = some st' ∧ Core t k s0 P st' ∧ r.head.holds st'.values ∧
      Mono t st.values st'.values ∧ st'.unsat = st.unsat ∧ st'.queue.length ≤ st.queue.length + 1 := by
  have hvh := hwf.validHead r hr
  obtain ⟨d, hd, hdv⟩ := hvh
  have hder := hwf.headDerived r hr
  have hnd := hwf.headNonDefault r hr
  have hlt : r.head.var < st.values.length := by
    rw [hc.valid.1]
    rcases Nat.lt_or_ge r.head.var t.vars.length with h | h
    · exact h
    · rw [List.getElem?_eq_none h] at hd; simp at hd
  obtain ⟨x, hx⟩ : ∃ x, st.values[r.head.var]? = some x := ⟨_, List.getElem?_eq_getElem hlt⟩
  unfold fire
  simp only [hx, Option.bind_eq_bind, Option.bind_some]
  by_cases hxv : x = r.head.val
  · simp only [hxv, ne_eq, not_true_eq_false, if_false]
    exact ⟨st, rfl, hc, by unfold Fact.holds; rw [hx, hxv], fun _ _ _ h => h, rfl, by omega⟩
  · simp only [ne_eq, hxv, not_false_eq_true, if_true, literal_eq (⟨d, hd, hdv⟩ : t.ValidFact r.head), Option.bind_some]
    -- the variable still has its default value
    have hxd : x = t.defaultOf r.head.var := by
      rcases hc.range _ x hder hx with h | ⟨r', hr', he⟩
      · exact h
      · exfalso
        have := hwf.oneValue r' hr' r hr (by rw [he])
        rw [he] at this; exact hxv this
    have hlitP : ∀ c ∈ r.body, Lit t k st.values c := fun c hcb => (hc.lits c).mp (Or.inl (hbody c hcb))
    obtain ⟨ℓ, hℓ⟩ := Option.ne_none_iff_exists'.mp hder
    have hℓk : k ≤ ℓ := by
      rcases Nat.lt_or_ge ℓ k with h | h
      · exfalso
        obtain ⟨c, hcb, hnh, _⟩ := hc.closed r hr ℓ hℓ h (by rw [hx, hxd])
        exact hnh (hlitP c hcb).1
      · exact h
    have hget : ∀ w, w ≠ r.head.var → (st.values.set r.head.var r.head.val)[w]? = st.values[w]? :=
      fun w hw => List.getElem?_set_ne (Ne.symm hw)
    have hself : (st.values.set r.head.var r.head.val)[r.head.var]? = some r.head.val := List.getElem?_set_self hlt
    have hholds : ∀ f : Fact, f.var ≠ r.head.var → (f.holds (st.values.set r.head.var r.head.val) ↔ f.holds st.values) := by
      intro f hf; unfold Fact.holds; rw [hget _ hf]
    have hheadnew : r.head ∉ P ++ st.queue := by
      intro hm
      have := ((hc.lits r.head).mp (List.mem_append.mp hm)).1
      unfold Fact.holds at this
      rw [hx] at this
      exact hxv (Option.some.inj this)
    refine ⟨_, rfl, ⟨?_, ?_, ?_, ?_, ?_, ?_, ?_⟩, hself, ?_, rfl, by simp⟩
    · -- valid
      refine ⟨by simp [hc.valid.1], ?_⟩
      intro w y dw hw hdw
      simp only at hw
      by_cases h : w = r.head.var
      · subst h
        rw [hself] at hw
        rw [hd] at hdw; cases hdw; cases hw; exact hdv
      · rw [hget w h] at hw; exact hc.valid.2 w y dw hw hdw
    · intro w hw
      simp only
      have : w ≠ r.head.var := by intro h; subst h; exact hder hw
      rw [hget w this]; exact hc.base w hw
    · intro w y hw hy
      simp only at hy
      by_cases h : w = r.head.var
      · subst h
        rw [hself] at hy; cases hy
        right; exact ⟨r, hr, rfl⟩
      · rw [hget w h] at hy; exact hc.range w y hw hy
    · -- lits
      intro f
      simp only [List.mem_cons]
      by_cases hf : f.var = r.head.var
      · have hlay : t.layerOf f.var = some ℓ := by rw [hf]; exact hℓ
        constructor
        · intro hmem
          have : f = r.head := by
            rcases hmem with h | h | h
            · exfalso
              have := (hc.lits f).mp (Or.inl h)
              obtain ⟨g1, g2⟩ := this
              unfold Fact.holds at g1
              rw [hf, hx] at g1
              rcases g2 with g2 | ⟨ℓ', g2, g3⟩
              · rw [hlay] at g2; simp at g2
              · rw [hlay] at g2; cases g2
                rcases g3 with g3 | g3
                · apply g3; rw [hf, ← hxd]; exact (Option.some.inj g1).symm
                · omega
            · exact h
            · exfalso
              have := (hc.lits f).mp (Or.inr h)
              obtain ⟨g1, g2⟩ := this
              unfold Fact.holds at g1
              rw [hf, hx] at g1
              rcases g2 with g2 | ⟨ℓ', g2, g3⟩
              · rw [hlay] at g2; simp at g2
              · rw [hlay] at g2; cases g2
                rcases g3 with g3 | g3
                · apply g3; rw [hf, ← hxd]; exact (Option.some.inj g1).symm
                · omega
          subst this
          exact ⟨hself, Or.inr ⟨ℓ, hℓ, Or.inl hnd⟩⟩
        · rintro ⟨g1, _⟩
          right; left
          unfold Fact.holds at g1
          rw [hf, hself] at g1
          obtain ⟨fv, fx⟩ := f
          have hrh : r.head = ⟨r.head.var, r.head.val⟩ := rfl
          rw [hrh]
          simp only at hf g1
          rw [hf, ← Option.some.inj g1]
      · have hne : f ≠ r.head := by intro h; subst h; exact hf rfl
        have : (f ∈ P ∨ f = r.head ∨ f ∈ st.queue) ↔ (f ∈ P ∨ f ∈ st.queue) := by
          constructor
          · rintro (h | h | h)
            · exact Or.inl h
            · exact absurd h hne
            · exact Or.inr h
          · rintro (h | h)
            · exact Or.inl h
            · exact Or.inr (Or.inr h)
        rw [this, hc.lits f]
        unfold Lit
        rw [hholds f hf]
    · -- nodup
      have hperm : (P ++ r.head :: st.queue).Perm (r.head :: (P ++ st.queue)) := List.perm_middle
      rw [hperm.nodup_iff, List.nodup_cons]
      exact ⟨hheadnew, hc.nodup⟩
    · -- deriv
      intro f hfl hfd hfh
      have hmono : ∀ c, (c ∈ P ∨ c ∈ st.queue) → (c ∈ P ∨ c ∈ r.head :: st.queue) := by
        rintro c (h | h)
        · exact Or.inl h
        · exact Or.inr (List.mem_cons_of_mem _ h)
      by_cases hf : f.var = r.head.var
      · have hfr : f = r.head := by
          unfold Fact.holds at hfh
          simp only at hfh
          rw [hf, hself] at hfh
          obtain ⟨fv, fx⟩ := f
          have hrh : r.head = ⟨r.head.var, r.head.val⟩ := rfl
          rw [hrh]
          simp only at hf hfh
          rw [hf, ← Option.some.inj hfh]
        subst hfr
        refine Derives.rule r hr ?_ ?_ ?_
        · intro c hcb hcl
          have := (hlitP c hcb).1
          unfold Fact.holds at this ⊢
          rw [← hc.base _ hcl]; exact this
        · intro c hcb _ _; exact Or.inl (hbody c hcb)
        · intro c hcb h1 h2
          exact Derives.mono hmono (hc.deriv c h1 h2 (hlitP c hcb).1)
      · exact Derives.mono hmono (hc.deriv f hfl hfd ((hholds f hf).mp hfh))
    · -- closed
      intro r' hr' ℓ' hℓ' hlt' hv'
      simp only at hv'
      have hne : r'.head.var ≠ r.head.var := by
        intro h; rw [h, hℓ] at hℓ'; cases hℓ'; omega
      rw [hget _ hne] at hv'
      obtain ⟨c, hcb, hnh, hcl⟩ := hc.closed r' hr' ℓ' hℓ' hlt' hv'
      refine ⟨c, hcb, ?_, hcl⟩
      have hcne : c.var ≠ r.head.var := by
        intro h
        rcases hcl with g | ⟨ℓc, g1, g2⟩
        · rw [h] at g; exact hder g
        · rw [h, hℓ] at g1; cases g1; omega
      intro hh
      exact hnh ((hholds c hcne).mp hh)
    · intro f hfd hfl hfh
      by_cases hf : f.var = r.head.var
      · exfalso
        unfold Fact.holds at hfh
        rw [hf, hx, hxd] at hfh
        apply hfd
        rw [hf]; exact (Option.some.inj hfh).symm
      · exact (hholds f hf).mpr hfh

theorem Mono.trans {t : Task} {a b c : State} (h1 : Mono t a b) (h2 : Mono t b c) : Mono t a c :=
  fun f hf hl h => h2 f hf hl (h1 f hf hl h)

theorem Mono.head {t : Task} (hwf : t.WFAxioms) {a b : State} (h : Mono t a b) {r : Rule} (hr : r ∈ t.rules)
    (hh : r.head.holds a) : r.head.holds b :=
  h r.head (hwf.headNonDefault r hr) (hwf.headDerived r hr) hh

/-! ### rules without conditions -/

theorem emptyRules_spec {t : Task} (hwf : t.WFAxioms) {k : Nat} {s0 : State} {P : List Fact} :
    ∀ (rs : List Rule) (st : St), (∀ r ∈ rs, r ∈ t.rules) → Core t k s0 P st →
    ∃ st', emptyRules t rs st = some st' ∧ Core t k s0 P st' ∧ Mono t st.values st'.values ∧
      (∀ r ∈ rs, r.body = [] → r.head.holds st'.values) ∧ st'.unsat = st.unsat ∧
      st'.queue.length ≤ st.queue.length + rs.length := by
  intro rs
  induction rs with
  | nil => intro st _ hc; exact ⟨st, rfl, hc, fun _ _ _ h => h, by simp, rfl, by simp⟩
  | cons r rs ih =>
    intro st hrs hc
    unfold emptyRules
    by_cases hb : r.body.length = 0
    · have hbn : r.body = [] := List.eq_nil_of_length_eq_zero hb
      obtain ⟨st1, e1, c1, h1, m1, u1, q1⟩ := fire_spec hwf hc (hrs r (by simp)) (by rw [hbn]; simp)
      obtain ⟨st2, e2, c2, m2, h2, u2, q2⟩ := ih st1 (fun r' h' => hrs r' (by simp [h'])) c1
      refine ⟨st2, ?_, c2, m1.trans m2, ?_, by rw [u2, u1], by simp; omega⟩
      · rw [if_pos hb]
        show (fire t r st).bind _ = _
        rw [e1]; exact e2
      · intro r' hr' hb'
        rcases List.mem_cons.mp hr' with h | h
        · subst h; exact m2.head hwf (hrs r' (by simp)) h1
        · exact h2 r' h hb'
    · obtain ⟨st2, e2, c2, m2, h2, u2, q2⟩ := ih st (fun r' h' => hrs r' (by simp [h'])) hc
      refine ⟨st2, by rw [if_neg hb]; exact e2, c2, m2, ?_, u2, by simp; omega⟩
      intro r' hr' hb'
      rcases List.mem_cons.mp hr' with h | h
      · subst h; exact absurd (by rw [hb']; rfl) hb
      · exact h2 r' h hb'

/-! ### unsatisfied-condition counters -/

/-- number of conditions (with multiplicity) not yet processed -/
def openConds (P : List Fact) (r : Rule) : Nat := (r.body.filter (fun c => decide (c ∉ P))).length

theorem openConds_cons {P : List Fact} {lit : Fact} (h : lit ∉ P) (r : Rule) :
    openConds P r = openConds (lit :: P) r + (r.body.filter (· = lit)).length := by
  unfold openConds
  induction r.body with
  | nil => rfl
  | cons c l ih =>
    simp only [List.filter_cons]
    by_cases hc : c = lit
    · subst hc
      simp [h] at ih ⊢
      omega
    · by_cases hp : c ∈ P
      · simp [hc, hp] at ih ⊢; exact ih
      · simp [hc, hp] at ih ⊢; omega

theorem openConds_zero {P : List Fact} {r : Rule} : openConds P r = 0 ↔ ∀ c ∈ r.body, c ∈ P := by
  unfold openConds
  rw [List.length_eq_zero_iff, List.filter_eq_nil_iff]
  simp

/-- state of the counters while the rules `is` are still to be visited for the popped literal -/
structure Cnt (t : Task) (P : List Fact) (is : List Nat) (st : St) : Prop where
  len : st.unsat.length = t.rules.length
  cnt : ∀ i r, t.rules[i]? = some r → st.unsat[i]? = some ((openConds P r + is.count i : Nat) : Int)
  done : ∀ i r, t.rules[i]? = some r → openConds P r + is.count i = 0 → r.head.holds st.values

def posCount (u : List Int) : Nat := u.countP (fun x => decide (1 ≤ x))

theorem posCount_set_le (u : List Int) (i : Nat) (x : Int) (h : u[i]? = some x) :
    posCount (u.set i (x - 1)) ≤ posCount u := by
  unfold posCount
  induction u generalizing i with
  | nil => simp at h
  | cons a l ih =>
    cases i with
    | zero =>
      simp at h; subst h
      simp only [List.set_cons_zero, List.countP_cons]
      have : (if decide (1 ≤ a - 1) = true then 1 else 0) ≤ (if decide (1 ≤ a) = true then 1 else 0) := by
        simp only [decide_eq_true_eq]; split <;> split <;> omega
      omega
    | succ i =>
      simp at h
      simp only [List.set_cons_succ, List.countP_cons]
      have := ih i h
      omega

theorem posCount_set_zero (u : List Int) (i : Nat) (h : u[i]? = some 1) :
    posCount (u.set i 0) + 1 = posCount u := by
  unfold posCount
  induction u generalizing i with
  | nil => simp at h
  | cons a l ih =>
    cases i with
    | zero => simp at h; subst h; simp
    | succ i =>
      simp at h
      simp only [List.set_cons_succ, List.countP_cons]
      have := ih i h
      omega

theorem trigger_spec {t : Task} (hwf : t.WFAxioms) {k : Nat} {s0 : State} {P : List Fact} :
    ∀ (is : List Nat) (st : St), Core t k s0 P st → Cnt t P is st → (∀ i ∈ is, i < t.rules.length) →
    ∃ st', trigger t t.rules is st = some st' ∧ Core t k s0 P st' ∧ Cnt t P [] st' ∧
      st'.queue.length + posCount st'.unsat ≤ st.queue.length + posCount st.unsat := by
  intro is
  induction is with
  | nil => intro st hc hn _; exact ⟨st, rfl, hc, hn, Nat.le_refl _⟩
  | cons i is ih =>
    intro st hc hn hlt
    have hi := hlt i (by simp)
    have hri := List.getElem?_eq_getElem hi
    have hui := hn.cnt i _ hri
    have hmem : t.rules[i] ∈ t.rules := List.getElem_mem hi
    simp only [List.count_cons_self] at hui
    unfold trigger
    simp only [hri, hui, Option.bind_eq_bind, Option.bind_some]
    have hsub : (((openConds P t.rules[i] + (is.count i + 1) : Nat) : Int) - 1) =
        ((openConds P t.rules[i] + is.count i : Nat) : Int) := by omega
    have hil : i < st.unsat.length := by rw [hn.len]; exact hi
    have hcnt' : ∀ j r, t.rules[j]? = some r →
        (st.unsat.set i (((openConds P t.rules[i] + is.count i : Nat) : Int)))[j]? = some ((openConds P r + is.count j : Nat) : Int) := by
      intro j r hj
      by_cases hij : i = j
      · subst hij
        rw [hri] at hj; cases hj
        rw [List.getElem?_set_self hil]
      · rw [List.getElem?_set_ne hij, hn.cnt j r hj, List.count_cons_of_ne hij]
    rw [hsub]
    by_cases hz : openConds P t.rules[i] + is.count i = 0
    · have hz' : ((openConds P t.rules[i] + is.count i : Nat) : Int) = 0 := by omega
      rw [if_pos hz']
      have hbody : ∀ c ∈ t.rules[i].body, c ∈ P := openConds_zero.mp (by omega)
      have hc1 : Core t k s0 P { st with unsat := st.unsat.set i ((openConds P t.rules[i] + is.count i : Nat) : Int) } :=
        ⟨hc.valid, hc.base, hc.range, hc.lits, hc.nodup, hc.deriv, hc.closed⟩
      obtain ⟨st1, e1, c1, h1, m1, u1, q1⟩ := fire_spec hwf hc1 hmem hbody
      have hn1 : Cnt t P is st1 := by
        refine ⟨by rw [u1]; simp [hn.len], ?_, ?_⟩
        · intro j r hj; rw [u1]; exact hcnt' j r hj
        · intro j r hj hzero
          by_cases hij : i = j
          · subst hij; rw [hri] at hj; cases hj; exact h1
          · apply m1.head hwf (List.mem_of_getElem? hj)
            exact hn.done j r hj (by rw [List.count_cons_of_ne hij]; exact hzero)
      obtain ⟨st2, e2, c2, n2, q2⟩ := ih st1 c1 hn1 (fun j hj => hlt j (by simp [hj]))
      refine ⟨st2, ?_, c2, n2, ?_⟩
      · rw [e1]; exact e2
      · rw [u1] at q2
        simp only at q1 q2
        have := posCount_set_zero st.unsat i (by rw [hui]; congr 1; omega)
        rw [hz'] at q2
        omega
    · have hz' : ¬ ((openConds P t.rules[i] + is.count i : Nat) : Int) = 0 := by omega
      rw [if_neg hz']
      have hc1 : Core t k s0 P { st with unsat := st.unsat.set i ((openConds P t.rules[i] + is.count i : Nat) : Int) } :=
        ⟨hc.valid, hc.base, hc.range, hc.lits, hc.nodup, hc.deriv, hc.closed⟩
      have hn1 : Cnt t P is { st with unsat := st.unsat.set i ((openConds P t.rules[i] + is.count i : Nat) : Int) } := by
        refine ⟨by simp [hn.len], hcnt', ?_⟩
        intro j r hj hzero
        by_cases hij : i = j
        · subst hij; rw [hri] at hj; cases hj; exact absurd hzero hz
        · exact hn.done j r hj (by rw [List.count_cons_of_ne hij]; exact hzero)
      obtain ⟨st2, e2, c2, n2, q2⟩ := ih _ hc1 hn1 (fun j hj => hlt j (by simp [hj]))
      refine ⟨st2, e2, c2, n2, ?_⟩
      simp only at q2
      have := posCount_set_le st.unsat i _ hui
      rw [hsub] at this
      omega

end Verif.Axioms
