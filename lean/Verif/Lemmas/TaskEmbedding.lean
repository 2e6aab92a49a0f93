import Verif.Props.Axioms
import Verif.Lemmas.RegistryOps
import Verif.Spec.Plan

/-
Tasks that arise from others by removing variables, renumbering variables and values, and removing operators: when plans correspond to plans.
-/
namespace Verif

/-- new numbers of variables (`none`: removed), new numbers of values, and the values which variables can have -/
structure Emb where
  idx : Nat → Option Nat
  rank : Nat → Nat → Nat
  D : Nat → Nat → Prop

namespace Emb
variable (E : Emb)

/-- the new name of a fact -/
def img (f : Fact) : Option Fact := (E.idx f.var).map (fun v => ⟨v, E.rank f.var f.val⟩)

/-- corresponding states -/
structure Rel (t t' : Task) (s s' : State) : Prop where
  length : s.length = t.vars.length
  length' : s'.length = t'.vars.length
  dom : ∀ v x : Nat, s[v]? = some x → E.D v x
  val : ∀ v v', E.idx v = some v' → ∃ x, s[v]? = some x ∧ s'[v']? = some (E.rank v x)

/-- a fact that always holds -/
structure Fixed (t : Task) (c : Fact) : Prop where
  exist : c.var < t.vars.length
  only : ∀ x, E.D c.var x → x = c.val
  default : t.layerOf c.var ≠ none → c.val = t.defaultOf c.var

/-- variables and axioms correspond -/
structure OK (t t' : Task) : Prop where
  inj : ∀ v w k, E.idx v = some k → E.idx w = some k → v = w
  surj : ∀ k, k < t'.vars.length → ∃ v, E.idx v = some k
  range : ∀ v k, E.idx v = some k → v < t.vars.length ∧ k < t'.vars.length
  rankInj : ∀ v k x y, E.idx v = some k → E.D v x → E.D v y → E.rank v x = E.rank v y → x = y
  domD : ∀ (v x : Nat) (d : Variable), t.vars[v]? = some d → E.D v x → x < d.domain
  layer : ∀ v k, E.idx v = some k → t'.layerOf k = t.layerOf v
  default : ∀ v k, E.idx v = some k → t.layerOf v ≠ none → t'.defaultOf k = E.rank v (t.defaultOf v)
  defaultD : ∀ v, t.layerOf v ≠ none → E.D v (t.defaultOf v)
  ruleD : ∀ r ∈ t.rules, (∀ c ∈ r.body, E.D c.var c.val) → E.D r.head.var r.head.val
  rule : ∀ r ∈ t.rules, (∀ c ∈ r.body, E.D c.var c.val) → ∀ h', E.img r.head = some h' → ⟨r.body.filterMap E.img, h'⟩ ∈ t'.rules
  rule' : ∀ r' ∈ t'.rules, ∃ r ∈ t.rules, r'.body = r.body.filterMap E.img ∧ E.img r.head = some r'.head ∧ E.D r.head.var r.head.val ∧
    ∀ c ∈ r.body, E.D c.var c.val ∧ (E.idx c.var = none → E.Fixed t c)

variable {E} {t t' : Task} {s s' m m' : State}

theorem img_some {f f' : Fact} (h : E.img f = some f') : E.idx f.var = some f'.var ∧ f'.val = E.rank f.var f.val := by
  simp only [img, Option.map_eq_some_iff] at h
  obtain ⟨v, h1, rfl⟩ := h
  exact ⟨h1, rfl⟩

theorem img_none {f : Fact} (h : E.img f = none) : E.idx f.var = none := by
  simpa [img] using h

theorem OK.img_inj (hE : E.OK t t') {f g f' : Fact} (hf : E.D f.var f.val) (hg : E.D g.var g.val) (h1 : E.img f = some f') (h2 : E.img g = some f') : f = g := by
  obtain ⟨a1, a2⟩ := img_some h1
  obtain ⟨b1, b2⟩ := img_some h2
  obtain ⟨v, x⟩ := f
  obtain ⟨w, y⟩ := g
  have : v = w := hE.inj _ _ _ a1 b1
  subst this
  have : x = y := hE.rankInj v _ x y a1 hf hg (a2.symm.trans b2)
  rw [this]

theorem Rel.valid (h : E.Rel t t' s s') (hE : E.OK t t') : t.ValidState s := ⟨h.length, fun v x d h1 h2 => hE.domD v x d h2 (h.dom v x h1)⟩

/-- a fact holds iff its image does -/
theorem Rel.holds (h : E.Rel t t' s s') (hE : E.OK t t') {f f' : Fact} (hD : E.D f.var f.val) (hi : E.img f = some f') : f.holds s ↔ f'.holds s' := by
  obtain ⟨a1, a2⟩ := img_some hi
  obtain ⟨x, b1, b2⟩ := h.val _ _ a1
  simp only [Fact.holds, b1, b2, a2, Option.some.injEq]
  exact ⟨fun e => by rw [e], fun e => hE.rankInj _ _ _ _ a1 (h.dom _ _ b1) hD e⟩

theorem Rel.fixed (h : E.Rel t t' s s') {f : Fact} (hf : E.Fixed t f) : f.holds s := by
  have hl : f.var < s.length := by rw [h.length]; exact hf.exist
  have e := List.getElem?_eq_getElem hl
  rw [Fact.holds, e, hf.only _ (h.dom _ _ e)]

/-- facts whose values are possible, and which always hold if their variables have been removed -/
theorem Rel.allHold (h : E.Rel t t' s s') (hE : E.OK t t') {fs : List Fact} (hD : ∀ f ∈ fs, E.D f.var f.val) (hF : ∀ f ∈ fs, E.idx f.var = none → E.Fixed t f) :
    Verif.allHold fs s ↔ Verif.allHold (fs.filterMap E.img) s' := by
  constructor
  · intro ha f' hf'
    obtain ⟨f, h1, h2⟩ := List.mem_filterMap.mp hf'
    exact (h.holds hE (hD f h1) h2).mp (ha f h1)
  · intro ha f hf
    cases hi : E.img f with
    | none => exact h.fixed (hF f hf (img_none hi))
    | some f' => exact (h.holds hE (hD f hf) hi).mpr (ha f' (List.mem_filterMap.mpr ⟨f, hf, hi⟩))

/-- a corresponding state exists -/
theorem OK.exists_rel (hE : E.OK t t') (hl : s.length = t.vars.length) (hd : ∀ v x : Nat, s[v]? = some x → E.D v x) : ∃ s', E.Rel t t' s s' := by
  classical
  let g : Nat → Nat := fun k => if h : k < t'.vars.length then E.rank (hE.surj k h).choose ((s[(hE.surj k h).choose]?).getD 0) else 0
  refine ⟨(List.range t'.vars.length).map g, hl, by simp, hd, fun v k hv => ?_⟩
  obtain ⟨h1, h2⟩ := hE.range v k hv
  have e := List.getElem?_eq_getElem (show v < s.length by omega)
  refine ⟨_, e, ?_⟩
  have hc : (hE.surj k h2).choose = v := hE.inj _ _ _ (hE.surj k h2).choose_spec hv
  rw [List.getElem?_map, List.getElem?_range h2, Option.map_some]
  simp only [g, dif_pos h2, hc, e, Option.getD_some]

/-- derivations correspond -/
theorem OK.derives (hE : E.OK t t') (hm : E.Rel t t' m m') (hs : E.Rel t t' s s') {f : Fact} (h : Derives t m (fun c => c.holds s) f) :
    E.D f.var f.val ∧ ∀ f', E.img f = some f' → Derives t' m' (fun c => c.holds s') f' := by
  induction h with
  | rule r hr hb hn hp ih =>
    have hD : ∀ c ∈ r.body, E.D c.var c.val := by
      intro c hc
      by_cases hl : t.layerOf c.var = none
      · exact hm.dom _ _ (hb c hc hl)
      · by_cases hv : c.val = t.defaultOf c.var
        · rw [hv]; exact hE.defaultD _ hl
        · exact (ih c hc hl hv).1
    refine ⟨hE.ruleD r hr hD, fun h' hh => ?_⟩
    have hr' := hE.rule r hr hD h' hh
    have hlay : ∀ c c', E.img c = some c' → t'.layerOf c'.var = t.layerOf c.var := fun c c' hi => hE.layer _ _ (img_some hi).1
    have hdef : ∀ c c', c ∈ r.body → E.img c = some c' → t.layerOf c.var ≠ none → (c'.val = t'.defaultOf c'.var ↔ c.val = t.defaultOf c.var) := by
      intro c c' hc hi hl
      obtain ⟨a1, a2⟩ := img_some hi
      rw [hE.default _ _ a1 hl, a2]
      exact ⟨fun e => hE.rankInj _ _ _ _ a1 (hD c hc) (hE.defaultD _ hl) e, fun e => by rw [e]⟩
    refine Derives.rule ⟨r.body.filterMap E.img, h'⟩ hr' ?_ ?_ ?_
    · intro c' hc' hl
      obtain ⟨c, h1, h2⟩ := List.mem_filterMap.mp hc'
      rw [hlay c c' h2] at hl
      exact (hm.holds hE (hD c h1) h2).mp (hb c h1 hl)
    · intro c' hc' hl hv
      obtain ⟨c, h1, h2⟩ := List.mem_filterMap.mp hc'
      rw [hlay c c' h2] at hl
      exact (hs.holds hE (hD c h1) h2).mp (hn c h1 hl ((hdef c c' h1 h2 hl).mp hv))
    · intro c' hc' hl hv
      obtain ⟨c, h1, h2⟩ := List.mem_filterMap.mp hc'
      rw [hlay c c' h2] at hl
      exact (ih c h1 hl (fun e => hv ((hdef c c' h1 h2 hl).mpr e))).2 c' h2

theorem OK.derives_back (hE : E.OK t t') (hm : E.Rel t t' m m') (hs : E.Rel t t' s s') {f' : Fact} (h : Derives t' m' (fun c => c.holds s') f') :
    ∃ f, E.img f = some f' ∧ E.D f.var f.val ∧ Derives t m (fun c => c.holds s) f := by
  induction h with
  | rule r' hr' hb hn hp ih =>
    obtain ⟨r, hr, h1, h2, h3, h4⟩ := hE.rule' r' hr'
    refine ⟨r.head, h2, h3, Derives.rule r hr ?_ ?_ ?_⟩
    · intro c hc hl
      cases hi : E.img c with
      | none => exact hm.fixed ((h4 c hc).2 (img_none hi))
      | some c' =>
        have hc' : c' ∈ r'.body := by rw [h1]; exact List.mem_filterMap.mpr ⟨c, hc, hi⟩
        exact (hm.holds hE (h4 c hc).1 hi).mpr (hb c' hc' (by rw [hE.layer _ _ (img_some hi).1]; exact hl))
    · intro c hc hl hv
      cases hi : E.img c with
      | none => exact hs.fixed ((h4 c hc).2 (img_none hi))
      | some c' =>
        obtain ⟨a1, a2⟩ := img_some hi
        have hc' : c' ∈ r'.body := by rw [h1]; exact List.mem_filterMap.mpr ⟨c, hc, hi⟩
        refine (hs.holds hE (h4 c hc).1 hi).mpr (hn c' hc' (by rw [hE.layer _ _ a1]; exact hl) ?_)
        rw [hE.default _ _ a1 hl, a2, hv]
    · intro c hc hl hv
      cases hi : E.img c with
      | none => exact absurd (((h4 c hc).2 (img_none hi)).default hl) hv
      | some c' =>
        obtain ⟨a1, a2⟩ := img_some hi
        have hc' : c' ∈ r'.body := by rw [h1]; exact List.mem_filterMap.mpr ⟨c, hc, hi⟩
        obtain ⟨d, d1, d2, d3⟩ := ih c' hc' (by rw [hE.layer _ _ a1]; exact hl) (by
          rw [hE.default _ _ a1 hl, a2]
          exact fun e => hv (hE.rankInj _ _ _ _ a1 (h4 c hc).1 (hE.defaultD _ hl) e))
        rw [hE.img_inj (h4 c hc).1 d2 hi d1]
        exact d3

/-- the axioms give corresponding values -/
theorem OK.stable (hE : E.OK t t') (hm : E.Rel t t' m m') (h : StableModel t m s) : ∃ s', E.Rel t t' s s' ∧ StableModel t' m' s' := by
  have hdom : ∀ v x : Nat, s[v]? = some x → E.D v x := by
    intro v x hx
    by_cases hl : t.layerOf v = none
    · rw [h.base v hl] at hx
      exact hm.dom v x hx
    · by_cases hv : x = t.defaultOf v
      · rw [hv]; exact hE.defaultD v hl
      · -- the facts used are possible by induction over the derivation
        have hd := (h.pos ⟨v, x⟩ hl hv).mp hx
        have : ∀ f, Derives t m (fun c => c.holds s) f → E.D f.var f.val := by
          intro f hf
          induction hf with
          | rule r hr hb hn hp ih =>
            refine hE.ruleD r hr (fun c hc => ?_)
            by_cases hl : t.layerOf c.var = none
            · exact hm.dom _ _ (hb c hc hl)
            · by_cases hv : c.val = t.defaultOf c.var
              · rw [hv]; exact hE.defaultD _ hl
              · exact ih c hc hl hv
        exact this _ hd
  obtain ⟨s', hs⟩ := hE.exists_rel (h.length.trans hm.length) hdom
  refine ⟨s', hs, by rw [hs.length', hm.length'], ?_, ?_, ?_⟩
  · intro k hl
    by_cases hk : k < t'.vars.length
    · obtain ⟨v, hv⟩ := hE.surj k hk
      obtain ⟨x, a1, a2⟩ := hs.val v k hv
      obtain ⟨y, b1, b2⟩ := hm.val v k hv
      rw [hE.layer v k hv] at hl
      rw [h.base v hl, b1] at a1
      simp only [Option.some.injEq] at a1
      rw [a2, b2, a1]
    · rw [List.getElem?_eq_none (by rw [hs.length']; omega), List.getElem?_eq_none (by rw [hm.length']; omega)]
  · intro f' hl hv
    have hk : f'.var < t'.vars.length := by
      by_contra hk
      rw [Task.layerOf, List.getElem?_eq_none (by omega)] at hl
      simp at hl
    obtain ⟨v, hi⟩ := hE.surj _ hk
    obtain ⟨x, a1, a2⟩ := hs.val v _ hi
    rw [hE.layer v _ hi] at hl
    constructor
    · intro hf
      rw [Fact.holds, a2] at hf
      simp only [Option.some.injEq] at hf
      have himg : E.img ⟨v, x⟩ = some f' := by
        simp only [img, hi, Option.map_some, Option.some.injEq]
        rw [hf]
      refine (hE.derives hm hs ((h.pos ⟨v, x⟩ hl (fun e => hv ?_)).mp a1)).2 f' himg
      rw [hE.default v _ hi hl, ← hf]
      exact congrArg _ e
    · intro hd
      obtain ⟨f, h1, h2, h3⟩ := hE.derives_back hm hs hd
      obtain ⟨b1, b2⟩ := img_some h1
      have hvv : f.var = v := hE.inj _ _ _ b1 hi
      refine (hs.holds hE h2 h1).mp ((h.pos f (by rw [hvv]; exact hl) (fun e => hv ?_)).mpr h3)
      rw [b2, e, hvv, hE.default v _ hi hl]
  · intro k hl
    have hk : k < t'.vars.length := by
      by_contra hk
      rw [Task.layerOf, List.getElem?_eq_none (by omega)] at hl
      simp at hl
    obtain ⟨v, hi⟩ := hE.surj _ hk
    obtain ⟨x, a1, a2⟩ := hs.val v _ hi
    rw [hE.layer v _ hi] at hl
    have hdef := hE.default v _ hi hl
    constructor
    · intro hno
      have : s[v]? = some (t.defaultOf v) := by
        refine (h.neg v hl).mp (fun y hy hd => ?_)
        obtain ⟨b1, b2⟩ := hE.derives hm hs hd
        refine hno (E.rank v y) (fun e => hy ?_) (b2 ⟨k, E.rank v y⟩ (by simp [img, hi]))
        rw [hdef] at e
        exact hE.rankInj v k y _ hi b1 (hE.defaultD v hl) e
      rw [a1] at this
      simp only [Option.some.injEq] at this
      rw [a2, this, hdef]
    · intro heq y' hy' hd
      obtain ⟨f, h1, h2, h3⟩ := hE.derives_back hm hs hd
      obtain ⟨b1, b2⟩ := img_some h1
      have hvv : f.var = v := hE.inj _ _ _ b1 hi
      obtain ⟨w, y⟩ := f
      simp only at hvv b2 h2
      subst hvv
      rw [a2] at heq
      simp only [Option.some.injEq] at heq
      rw [hdef] at heq
      have := hE.rankInj _ _ _ _ hi (hdom _ _ a1) (hE.defaultD _ hl) heq
      refine (h.neg w hl).mpr (by rw [a1, this]) y (fun e => hy' ?_) h3
      rw [b2, hdef, e]

/-- layers are respected -/
theorem OK.stratified (hE : E.OK t t') (h : Axioms.Stratified t) : Axioms.Stratified t' where
  pos := by
    intro r' hr' c' hc' ℓc ℓh h1 h2
    obtain ⟨r, hr, a1, a2, _, _⟩ := hE.rule' r' hr'
    rw [a1] at hc'
    obtain ⟨c, hc, hi⟩ := List.mem_filterMap.mp hc'
    rw [hE.layer _ _ (img_some hi).1] at h1
    rw [hE.layer _ _ (img_some a2).1] at h2
    exact h.pos r hr c hc ℓc ℓh h1 h2
  neg := by
    intro r' hr' c' hc' ℓc ℓh h1 h2 h3
    obtain ⟨r, hr, a1, a2, _, a4⟩ := hE.rule' r' hr'
    rw [a1] at hc'
    obtain ⟨c, hc, hi⟩ := List.mem_filterMap.mp hc'
    obtain ⟨b1, b2⟩ := img_some hi
    rw [hE.layer _ _ b1] at h1
    rw [hE.layer _ _ (img_some a2).1] at h2
    have hl : t.layerOf c.var ≠ none := by rw [h1]; simp
    rw [hE.default _ _ b1 hl, b2] at h3
    exact h.neg r hr c hc ℓc ℓh h1 h2 (hE.rankInj _ _ _ _ b1 (a4 c hc).1 (hE.defaultD _ hl) h3)

/-- a stable model is one of itself -/
theorem stable_self (h : StableModel t m s) : StableModel t s s := by
  have hder : ∀ (neg : Fact → Prop) f, Derives t m neg f ↔ Derives t s neg f := by
    intro neg f
    constructor <;> intro d
    · induction d with
      | rule r hr h1 h2 _ ih =>
        exact .rule r hr (fun c hc hn => by have := h1 c hc hn; unfold Fact.holds at this ⊢; rw [h.base _ hn]; exact this) h2 ih
    · induction d with
      | rule r hr h1 h2 _ ih =>
        exact .rule r hr (fun c hc hn => by have := h1 c hc hn; unfold Fact.holds at this ⊢; rw [← h.base _ hn]; exact this) h2 ih
  exact ⟨rfl, fun _ _ => rfl, fun f h1 h2 => by rw [h.pos f h1 h2, hder], fun v h1 => by rw [← h.neg v h1]; simp only [hder]⟩

/-- what the operators of the first task do, those of the second one do; `P` if operators are removed that can be applied -/
structure Fwd (E : Emb) (t t' : Task) (keep : Nat → Option Nat) (P : Prop) : Prop where
  ok : E.OK t t'
  strat : Axioms.Stratified t'
  kept : ∀ (i j : Nat) (o : Operator), t.ops[i]? = some o → keep i = some j → ∃ o', t'.ops[j]? = some o' ∧ ∀ s s', E.Rel t t' s s' →
    o.applicable s → o'.applicable s' ∧ ∀ m, o.EffectResult s m → ∃ m', o'.EffectResult s' m' ∧ E.Rel t t' m m'
  dropped : ∀ (i : Nat) (o : Operator), t.ops[i]? = some o → keep i = none → ∀ s s', E.Rel t t' s s' → o.applicable s → ∀ m, o.EffectResult s m → E.Rel t t' m s' ∧ P
  goal : ∀ s s', E.Rel t t' s s' → Verif.allHold t.goal s → Verif.allHold t'.goal s'
  init : E.Rel t t' t.init t'.init

/-- what the operators of the second task do, those of the first one do, or nothing has to be done; `Q` if there are operators without effects -/
structure Bwd (E : Emb) (t t' : Task) (keep : Nat → Option Nat) (Q : Prop) : Prop where
  ok : E.OK t t'
  strat : Axioms.Stratified t'
  exist : ∀ m, t.ValidState m → ∃ s, StableModel t m s
  op : ∀ (j : Nat) (o' : Operator), t'.ops[j]? = some o' → (Q ∧ ∀ s' m', o'.EffectResult s' m' → m' = s') ∨ ∃ (i : Nat) (o : Operator), t.ops[i]? = some o ∧ keep i = some j ∧
    ∀ s s', E.Rel t t' s s' → o'.applicable s' → o.applicable s ∧ ∀ m, o.EffectResult s m → ∃ m', o'.EffectResult s' m' ∧ E.Rel t t' m m'
  goal : ∀ s s', E.Rel t t' s s' → Verif.allHold t'.goal s' → Verif.allHold t.goal s
  init : E.Rel t t' t.init t'.init

variable {keep : Nat → Option Nat} {P Q : Prop}

theorem unique (h : Axioms.Stratified t') {a b : State} (hl : m'.length = t'.vars.length) (ha : StableModel t' m' a) (hb : StableModel t' m' b) : a = b :=
  Axioms.stable_unique_of h rfl (fun _ _ => rfl) hl ha hb

theorem Fwd.forward (h : E.Fwd t t' keep P) {π : List Nat} {u : State} (he : t.Exec s π u) : ∀ s', E.Rel t t' s s' → StableModel t' s' s' →
    ∃ u', t'.Exec s' (π.filterMap keep) u' ∧ E.Rel t t' u u' ∧ (¬ P → ∀ i ∈ π, keep i ≠ none) := by
  induction he with
  | nil s => intro s' hr _; exact ⟨s', .nil s', hr, by simp⟩
  | cons s i o s2 π u ho ha hs _ ih =>
    intro s' hr hst
    obtain ⟨m, h1, h2⟩ := hs
    cases hk : keep i with
    | none =>
      obtain ⟨hm, hP⟩ := h.dropped i o ho hk s s' hr ha m h1
      obtain ⟨s2', a1, a2⟩ := h.ok.stable hm h2
      have : s2' = s' := unique h.strat hr.length' a2 hst
      subst this
      obtain ⟨u', b1, b2, _⟩ := ih s2' a1 hst
      exact ⟨u', by rw [List.filterMap_cons, hk]; exact b1, b2, fun hn => absurd hP hn⟩
    | some j =>
      obtain ⟨o', c1, c2⟩ := h.kept i j o ho hk
      obtain ⟨c3, c4⟩ := c2 s s' hr ha
      obtain ⟨m', c5, c6⟩ := c4 m h1
      obtain ⟨s2', a1, a2⟩ := h.ok.stable c6 h2
      obtain ⟨u', b1, b2, b3⟩ := ih s2' a1 (stable_self a2)
      refine ⟨u', by rw [List.filterMap_cons, hk]; exact .cons s' j o' s2' _ u' c1 c3 ⟨m', c5, a2⟩ b1, b2, fun hn x hx => ?_⟩
      rcases List.mem_cons.mp hx with rfl | hx
      · rw [hk]; simp
      · exact b3 hn x hx

theorem Bwd.backward (h : E.Bwd t t' keep Q) {π' : List Nat} {u' : State} (he : t'.Exec s' π' u') : ∀ s, E.Rel t t' s s' → StableModel t' s' s' →
    ∃ π π'' u, t.Exec s π u ∧ E.Rel t t' u u' ∧ π''.Sublist π' ∧ (¬ Q → π'' = π') ∧ π.map keep = π''.map some := by
  induction he with
  | nil s' => intro s hr _; exact ⟨[], [], s, .nil s, hr, .refl _, fun _ => rfl, rfl⟩
  | cons s' j o' s2' π' u' ho' ha' hs' _ ih =>
    intro s hr hst
    obtain ⟨m', d1, d2⟩ := hs'
    rcases h.op j o' ho' with ⟨hQ, hid⟩ | ⟨i, o, h1, h2, c2⟩
    · have := hid s' m' d1
      subst this
      have := unique h.strat hr.length' d2 hst
      subst this
      obtain ⟨π, π'', u, f1, f2, f3, f4, f5⟩ := ih s hr hst
      exact ⟨π, π'', u, f1, f2, f3.cons _, fun hn => absurd hQ hn, f5⟩
    · obtain ⟨c3, c4⟩ := c2 s s' hr ha'
      have hres := Verif.Registry.applyEffs_result o s
      obtain ⟨m'', c5, c6⟩ := c4 _ hres
      have := Verif.Registry.effectResult_unique d1 c5
      subst this
      obtain ⟨s2, e1⟩ := h.exist _ (c6.valid h.ok)
      obtain ⟨s2'', a1, a2⟩ := h.ok.stable c6 e1
      have : s2'' = s2' := unique h.strat c6.length' a2 d2
      subst this
      obtain ⟨π, π'', u, f1, f2, f3, f4, f5⟩ := ih s2 a1 (stable_self d2)
      exact ⟨i :: π, j :: π'', u, .cons s i o s2 π u h1 c3 ⟨_, hres, e1⟩ f1, f2, f3.cons₂ _, fun hn => by rw [f4 hn], by rw [List.map_cons, List.map_cons, h2, f5]⟩

/-- plans without the removed operators are plans -/
theorem Fwd.plan (h : E.Fwd t t' keep P) {π : List Nat} (hs : StableModel t t.init s) (hp : t.SolvesFrom s π) : ∃ s', StableModel t' t'.init s' ∧ t'.SolvesFrom s' (π.filterMap keep) ∧ (¬ P → ∀ i ∈ π, keep i ≠ none) := by
  obtain ⟨s', h1, h2⟩ := h.ok.stable h.init hs
  obtain ⟨u, h3, h4⟩ := hp
  obtain ⟨u', h5, h6, h7⟩ := h.forward h3 s' h1 (stable_self h2)
  exact ⟨s', h2, ⟨u', h5, h.goal u u' h6 h4⟩, h7⟩

/-- plans without operators that do nothing are plans -/
theorem Bwd.plan (h : E.Bwd t t' keep Q) {π' : List Nat} (hs' : StableModel t' t'.init s') (hp : t'.SolvesFrom s' π') :
    ∃ s π π'', StableModel t t.init s ∧ t.SolvesFrom s π ∧ π''.Sublist π' ∧ (¬ Q → π'' = π') ∧ π.map keep = π''.map some := by
  obtain ⟨s, h1⟩ := h.exist _ (h.init.valid h.ok)
  obtain ⟨s'', h2, h3⟩ := h.ok.stable h.init h1
  have : s'' = s' := unique h.strat h.init.length' h3 hs'
  subst this
  obtain ⟨u', h4, h5⟩ := hp
  obtain ⟨π, π'', u, h6, h7, h8, h9, h10⟩ := h.backward h4 s h2 (stable_self hs')
  exact ⟨s, π, π'', h1, ⟨u, h6, h.goal u u' h7 h5⟩, h8, h9, h10⟩

/-- operators and goals correspond; `P` if operators are removed that can be applied -/
structure Sim (E : Emb) (t t' : Task) (keep : Nat → Option Nat) (P : Prop) : Prop where
  ok : E.OK t t'
  strat : Axioms.Stratified t'
  exist : ∀ m, t.ValidState m → ∃ s, StableModel t m s
  kept : ∀ (i j : Nat) (o : Operator), t.ops[i]? = some o → keep i = some j → ∃ o', t'.ops[j]? = some o' ∧ ∀ s s', E.Rel t t' s s' →
    (o.applicable s ↔ o'.applicable s') ∧ (o.applicable s → ∀ m, o.EffectResult s m → ∃ m', o'.EffectResult s' m' ∧ E.Rel t t' m m')
  dropped : ∀ (i : Nat) (o : Operator), t.ops[i]? = some o → keep i = none → ∀ s s', E.Rel t t' s s' → o.applicable s → ∀ m, o.EffectResult s m → E.Rel t t' m s' ∧ P
  surj : ∀ (j : Nat) (o' : Operator), t'.ops[j]? = some o' → ∃ (i : Nat) (o : Operator), t.ops[i]? = some o ∧ keep i = some j
  goal : ∀ s s', E.Rel t t' s s' → (Verif.allHold t.goal s ↔ Verif.allHold t'.goal s')
  init : E.Rel t t' t.init t'.init

theorem Sim.fwd (h : E.Sim t t' keep P) : E.Fwd t t' keep P where
  ok := h.ok
  strat := h.strat
  kept := fun i j o ho hk => by
    obtain ⟨o', h1, h2⟩ := h.kept i j o ho hk
    exact ⟨o', h1, fun s s' hr ha => ⟨(h2 s s' hr).1.mp ha, (h2 s s' hr).2 ha⟩⟩
  dropped := h.dropped
  goal := fun s s' hr => (h.goal s s' hr).mp
  init := h.init

theorem Sim.bwd (h : E.Sim t t' keep P) : E.Bwd t t' keep False where
  ok := h.ok
  strat := h.strat
  exist := h.exist
  op := fun j o' ho' => by
    obtain ⟨i, o, h1, h2⟩ := h.surj j o' ho'
    obtain ⟨o'', c1, c2⟩ := h.kept i j o h1 h2
    rw [ho'] at c1
    simp only [Option.some.injEq] at c1
    subst c1
    exact Or.inr ⟨i, o, h1, h2, fun s s' hr ha => ⟨(c2 s s' hr).1.mpr ha, (c2 s s' hr).2 ((c2 s s' hr).1.mpr ha)⟩⟩
  goal := fun s s' hr => (h.goal s s' hr).mpr
  init := h.init

/-- plans without the removed operators are plans -/
theorem Sim.plan (h : E.Sim t t' keep P) {π : List Nat} (hs : StableModel t t.init s) (hp : t.SolvesFrom s π) : ∃ s', StableModel t' t'.init s' ∧ t'.SolvesFrom s' (π.filterMap keep) ∧ (¬ P → ∀ i ∈ π, keep i ≠ none) :=
  h.fwd.plan hs hp

/-- plans are plans -/
theorem Sim.plan_back (h : E.Sim t t' keep P) {π' : List Nat} (hs' : StableModel t' t'.init s') (hp : t'.SolvesFrom s' π') :
    ∃ s π, StableModel t t.init s ∧ t.SolvesFrom s π ∧ π.map keep = π'.map some := by
  obtain ⟨s, π, π'', h1, h2, _, h4, h5⟩ := h.bwd.plan hs' hp
  rw [h4 id] at h5
  exact ⟨s, π, h1, h2, h5⟩

end Emb
end Verif
