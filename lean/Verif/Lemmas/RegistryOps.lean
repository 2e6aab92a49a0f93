import Verif.Lemmas.Registry

namespace Verif.Registry

open IntPacker IntHashSet SegmentedVector

/-! ### conditional effects -/

def applyEffs (s : State) : List Effect → State → State
  | [], c => c
  | e :: es, c => applyEffs s es (if e.fires s then c.set e.fact.var e.fact.val else c)

theorem applyEffs_length (s : State) : ∀ (es : List Effect) (c : State), (applyEffs s es c).length = c.length := by
  intro es
  induction es with
  | nil => intro c; rfl
  | cons e es ih => intro c; simp only [applyEffs]; rw [ih]; split <;> simp

theorem applyEffs_get (s : State) : ∀ (es : List Effect) (c : State) (v x : Nat), c[v]? = some x →
    (applyEffs s es c)[v]? =
      some ((((es.filter (fun e => decide (e.fires s) && e.fact.var == v)).getLast?).map (·.fact.val)).getD x) := by
  intro es
  induction es with
  | nil => intro c v x h; simp [applyEffs, h]
  | cons e es ih =>
    intro c v x h
    simp only [applyEffs, List.filter_cons]
    have hlt := lt_of_some h
    by_cases hf : e.fires s
    · rw [if_pos hf]
      by_cases hv : e.fact.var = v
      · rw [ih _ v e.fact.val (by rw [hv]; exact List.getElem?_set_self hlt)]
        simp only [hf, hv, decide_true, BEq.rfl, Bool.and_self, if_true]
        rw [List.getLast?_cons]
        cases (List.filter (fun e => decide (e.fires s) && e.fact.var == v) es).getLast? <;> simp
      · rw [ih _ v x (by rw [List.getElem?_set_ne hv]; exact h)]
        have : (e.fact.var == v) = false := by simpa using hv
        simp [this]
    · rw [if_neg hf, ih _ v x h]
      simp [hf]

theorem applyEffs_result (o : Operator) (s : State) : o.EffectResult s (applyEffs s o.effects s) :=
  ⟨applyEffs_length _ _ _, fun v x h => applyEffs_get s o.effects s v x h⟩

theorem effectResult_unique {o : Operator} {s a b : State} (ha : o.EffectResult s a) (hb : o.EffectResult s b) : a = b := by
  apply List.ext_getElem?
  intro v
  rcases Nat.lt_or_ge v s.length with h | h
  · rw [ha.2 v _ (List.getElem?_eq_getElem h), hb.2 v _ (List.getElem?_eq_getElem h)]
  · rw [List.getElem?_eq_none (by rw [ha.1]; exact h), List.getElem?_eq_none (by rw [hb.1]; exact h)]

theorem validFact_lt {t : Task} {f : Fact} (h : t.ValidFact f) : f.var < t.vars.length := by
  obtain ⟨d, h1, _⟩ := h; exact lt_of_some h1

theorem validFact_range {t : Task} {f : Fact} (h : t.ValidFact f) :
    ∃ r, (t.vars.map (·.domain))[f.var]? = some r ∧ f.val < r := by
  obtain ⟨d, h1, h2⟩ := h
  exact ⟨d.domain, by simp [h1], h2⟩

theorem validState_set {t : Task} {s : State} (h : t.ValidState s) {f : Fact} (hf : t.ValidFact f) :
    t.ValidState (s.set f.var f.val) := by
  refine ⟨by simp [h.1], ?_⟩
  intro v x d hx hd
  by_cases hv : f.var = v
  · subst hv
    rw [List.getElem?_set_self (by rw [h.1]; exact validFact_lt hf)] at hx
    obtain ⟨d', h1, h2⟩ := hf
    rw [hd] at h1; cases h1; cases hx; exact h2
  · rw [List.getElem?_set_ne hv] at hx; exact h.2 v x d hx hd

theorem applyEffs_valid {t : Task} (s : State) : ∀ (es : List Effect) (c : State),
    (∀ e ∈ es, t.ValidFact e.fact) → t.ValidState c → t.ValidState (applyEffs s es c) := by
  intro es
  induction es with
  | nil => intro c _ h; exact h
  | cons e es ih =>
    intro c he hc
    simp only [applyEffs]
    apply ih _ (fun e' h' => he e' (by simp [h']))
    split
    · exact validState_set hc (he e (by simp))
    · exact hc

theorem applyUnpacked_spec (s : State) (fires : List Fact → Option Bool) : ∀ (es : List Effect) (c : State),
    (∀ e ∈ es, fires e.conds = some (decide (e.fires s))) → (∀ e ∈ es, e.fact.var < c.length) →
    applyUnpacked fires es c = some (applyEffs s es c) := by
  intro es
  induction es with
  | nil => intro c _ _; rfl
  | cons e es ih =>
    intro c hf hl
    unfold applyUnpacked
    rw [hf e (by simp)]
    simp only [Option.bind_eq_bind, Option.bind_some, applyEffs]
    by_cases he : e.fires s
    · simp only [he, decide_true, if_true]
      rw [if_pos (hl e (by simp))]
      exact ih _ (fun e' h' => hf e' (by simp [h'])) (fun e' h' => by simp; exact hl e' (by simp [h']))
    · simp only [he, decide_false, Bool.false_eq_true, if_false]
      exact ih _ (fun e' h' => hf e' (by simp [h'])) (fun e' h' => hl e' (by simp [h']))

/-! ### reading states -/

structure Reads (ranges : List Nat) (r : Reg) (h : Handle) (s : State) : Prop where
  row : ∃ row, r.pool.get h.id = some row ∧ Packs ranges r.packer row s
  vals : ∀ vs, h.values = some vs → vs = s

theorem readVar_spec {ranges r h s} (hr : Reads ranges r h s) {v x : Nat} (hx : s[v]? = some x) :
    readVar r h v = some x := by
  unfold readVar
  cases hv : h.values with
  | some vs => simp only; rw [hr.vals vs hv]; exact hx
  | none =>
    obtain ⟨row, h1, h2⟩ := hr.row
    simp [h1, h2.get v x hx]

theorem doesFire_spec {ranges r h s} (hr : Reads ranges r h s) : ∀ (cs : List Fact), (∀ c ∈ cs, c.var < s.length) →
    doesFire r h cs = some (decide (allHold cs s)) := by
  intro cs
  induction cs with
  | nil => intro _; simp [doesFire, allHold]
  | cons c cs ih =>
    intro hl
    have hx := List.getElem?_eq_getElem (hl c (by simp))
    unfold doesFire
    rw [readVar_spec hr hx]
    simp only [Option.bind_eq_bind, Option.bind_some]
    by_cases hc : s[c.var]'(hl c (by simp)) = c.val
    · rw [if_neg (by simpa using hc), ih (fun c' h' => hl c' (by simp [h']))]
      congr 1
      apply decide_eq_decide.mpr
      unfold allHold
      constructor
      · intro h f hf
        rcases List.mem_cons.mp hf with g | g
        · subst g; unfold Fact.holds; rw [hx, hc]
        · exact h f g
      · intro h f hf; exact h f (by simp [hf])
    · rw [if_pos hc]
      congr 1
      symm
      apply decide_eq_false
      intro h
      have := h c (by simp)
      unfold Fact.holds at this
      rw [hx] at this
      exact hc (Option.some.inj this)

theorem unpackFrom_spec {ranges r h s} (hr : Reads ranges r h s) : ∀ (n v : Nat), v + n = s.length →
    unpackFrom r h n v = some (s.drop v) := by
  intro n
  induction n with
  | zero => intro v hv; simp [unpackFrom]; omega
  | succ n ih =>
    intro v hv
    obtain ⟨row, h1, h2⟩ := hr.row
    have hvl : v < s.length := by omega
    unfold unpackFrom
    rw [h1, ih (v + 1) (by omega)]
    simp only [Option.bind_eq_bind, Option.bind_some]
    rw [h2.get v _ (List.getElem?_eq_getElem hvl)]
    simp only [Option.bind_some]
    rw [List.drop_eq_getElem_cons hvl]; simp

theorem unpack_spec {t : Task} {r h s} (hr : Reads (t.vars.map (·.domain)) r h s) (hl : s.length = t.vars.length) :
    unpack t r h = some { h with values := some s } := by
  unfold unpack
  cases hv : h.values with
  | some vs =>
    have := hr.vals vs hv
    subst this
    obtain ⟨id, vals⟩ := h
    simp at hv ⊢; exact hv
  | none =>
    simp only
    rw [unpackFrom_spec hr _ 0 (by omega)]
    simp

/-! ### handles -/

structure HandleOk (L : List State) (h : Handle) (s : State) : Prop where
  mem : L[h.id]? = some s
  vals : ∀ vs, h.values = some vs → vs = s

theorem reads_of {hash t r L rows S h s} (hrep : RegRep hash t r L rows S) (hh : HandleOk L h s) :
    Reads (t.vars.map (·.domain)) r h s := by
  have hi := lt_of_some hh.mem
  have hir : h.id < rows.length := by rw [hrep.len]; exact hi
  refine ⟨⟨rows[h.id], ?_, ?_⟩, hh.vals⟩
  · rw [SAV.get_spec hrep.pool, List.getElem?_eq_getElem hir]
  · exact hrep.packs h.id _ s (List.getElem?_eq_getElem hir) hh.mem

theorem applyPacked_spec {t : Task} {h : Handle} {s : State} {rows : List (List Bin)} (hid : h.id < rows.length)
    (hs : s.length = t.vars.length) :
    ∀ (es : List Effect) (r : Reg) (row : List Bin) (c : State), PCtx (t.vars.map (·.domain)) r.packer →
    Reads (t.vars.map (·.domain)) r h s →
    r.pool.Rep (rows ++ [row]) → r.pool.perArray = r.packer.numBins → Packs (t.vars.map (·.domain)) r.packer row c →
    (∀ e ∈ es, t.ValidFact e.fact) → (∀ e ∈ es, ∀ f ∈ e.conds, t.ValidFact f) →
    ∃ pool row', applyPacked h rows.length es r = some { r with pool := pool } ∧
      pool.Rep (rows ++ [row']) ∧ pool.perArray = r.packer.numBins ∧
      Packs (t.vars.map (·.domain)) r.packer row' (applyEffs s es c) := by
  intro es
  induction es with
  | nil =>
    intro r row c _ _ hpool hper hpk _ _
    exact ⟨r.pool, row, rfl, hpool, hper, hpk⟩
  | cons e es ih =>
    intro r row c hctx hr hpool hper hpk hef hec
    unfold applyPacked
    rw [doesFire_spec hr e.conds (fun f hf => by rw [hs]; exact validFact_lt (hec e (by simp) f hf))]
    simp only [Option.bind_eq_bind, Option.bind_some, applyEffs]
    by_cases he : e.fires s
    · have he' : allHold e.conds s := he
      simp only [he, he', decide_true, if_true]
      obtain ⟨rg, hrg, hlt⟩ := validFact_range (hef e (by simp))
      obtain ⟨p1, row1, e1, h1, l1, k1⟩ := poolSet_spec hctx hpool hper (i := rows.length) (row := row) (by simp) hpk hrg hlt
      rw [e1]
      simp only [Option.bind_some]
      have hset : (rows ++ [row]).set rows.length row1 = rows ++ [row1] := by simp
      rw [hset] at h1
      have hr1 : Reads (t.vars.map (·.domain)) { r with pool := p1 } h s := by
        obtain ⟨ro, g1, g2⟩ := hr.row
        refine ⟨⟨ro, ?_, g2⟩, hr.vals⟩
        simp only
        rw [SAV.get_spec h1, List.getElem?_append_left hid]
        rw [SAV.get_spec hpool, List.getElem?_append_left hid] at g1
        exact g1
      obtain ⟨p2, row2, e2, h2, l2, k2⟩ := ih { r with pool := p1 } row1 _ hctx hr1 h1 l1 k1
        (fun e' h' => hef e' (by simp [h'])) (fun e' h' => hec e' (by simp [h']))
      exact ⟨p2, row2, e2, h2, l2, k2⟩
    · have he' : ¬ allHold e.conds s := he
      simp only [he, he', decide_false, Bool.false_eq_true, if_false]
      exact ih r row c hctx hr hpool hper hpk (fun e' h' => hef e' (by simp [h'])) (fun e' h' => hec e' (by simp [h']))

theorem Register.get {L : List State} {s : State} {id : Nat} {L' : List State} (h : Register L s id L') :
    L'[id]? = some s := by
  rcases h with ⟨h1, rfl⟩ | ⟨_, rfl, rfl⟩
  · exact h1
  · simp

theorem Register.prefix {L : List State} {s : State} {id : Nat} {L' : List State} (h : Register L s id L')
    {i : Nat} {s' : State} (hi : L[i]? = some s') : L'[i]? = some s' := by
  rcases h with ⟨_, rfl⟩ | ⟨_, _, rfl⟩
  · exact hi
  · rw [List.getElem?_append_left (lt_of_some hi)]; exact hi

/-- The state reached by an operator, as a function. -/
theorem succ_exists {t : Task} (hwf : t.WF) {o : Operator} (ho : o ∈ t.ops) {s : State} (hs : t.ValidState s) :
    ∃ s', Axioms.evaluate t (applyEffs s o.effects s) = some s' ∧ t.ValidState s' ∧ t.SuccRel o s s' := by
  obtain ⟨s', e, hv, hm⟩ := Axioms.evaluate_spec hwf.ax
    (applyEffs_valid s o.effects s (hwf.effFact o ho) hs)
  exact ⟨s', e, hv, _, applyEffs_result o s, hm⟩

theorem getSuccessor_good {hash t} (hwf : t.WF) {r : Reg} {L rows S} (hrep : RegRep hash t r L rows S)
    {h : Handle} {s : State} (hh : HandleOk L h s) {o : Operator} (ho : o ∈ t.ops) :
    (getSuccessor hash t r h o).Good (fun q => ∃ s' L' rows' S', t.SuccRel o s s' ∧ Register L s' q.2.id L' ∧
      RegRep hash t q.1 L' rows' S' ∧ HandleOk L' q.2 s') := by
  have hs : t.ValidState s := hrep.valid s (List.mem_of_getElem? hh.mem)
  obtain ⟨s', ev, hs', hsucc⟩ := succ_exists hwf ho hs
  have hreads := reads_of hrep hh
  obtain ⟨row, hrow, hpack⟩ := hreads.row
  unfold getSuccessor
  rw [hrow]
  simp only [Outcome.ofOption, ok_bind]
  obtain ⟨p1, e1, h1, l1⟩ := SAV.push_spec hrep.pool (x := row) (by rw [hpack.len, hrep.per])
  rw [e1]
  simp only [ok_bind]
  have hid : h.id < rows.length := by rw [hrep.len]; exact lt_of_some hh.mem
  have hper1 : p1.perArray = r.packer.numBins := by rw [l1]; exact hrep.per
  have hr1 : Reads (t.vars.map (·.domain)) { r with pool := p1 } h s := by
    refine ⟨⟨row, ?_, hpack⟩, hreads.vals⟩
    simp only
    rw [SAV.get_spec h1, List.getElem?_append_left hid]
    rw [SAV.get_spec hrep.pool] at hrow; exact hrow
  have hsz : p1.size - 1 = rows.length := by rw [h1.size]; simp
  by_cases hax : t.axioms.length > 0
  · rw [if_pos hax]
    unfold succAxioms
    rw [unpack_spec hr1 hs.1]
    simp only [Outcome.ofOption, ok_bind]
    have hr2 : Reads (t.vars.map (·.domain)) { r with pool := p1 } { h with values := some s } s :=
      ⟨hr1.row, by intro vs hv; simp at hv; exact hv.symm⟩
    rw [applyUnpacked_spec s (doesFire { r with pool := p1 } { h with values := some s }) o.effects s
      (fun e he => doesFire_spec hr2 e.conds (fun f hf => by rw [hs.1]; exact validFact_lt (hwf.effCond o ho e he f hf)))
      (fun e he => by rw [hs.1]; exact validFact_lt (hwf.effFact o ho e he))]
    simp only [ok_bind, ev]
    rw [hsz]
    obtain ⟨p2, row2, e2, h2, l2, k2⟩ := poolSetAll_spec hrep.ctx (i := rows.length) s' 0 p1 (rows ++ [row]) row s h1 hper1
      (by simp) hpack (by simp [hs'.1]) (by
        intro k x rg hx hrg
        simp at hrg
        obtain ⟨d, hd, rfl⟩ := hrg
        exact hs'.2 k x d hx hd)
    rw [e2]
    simp only [ok_bind]
    have hset : (rows ++ [row]).set rows.length row2 = rows ++ [row2] := by simp
    rw [hset] at h2
    simp only [List.take_zero, List.nil_append] at k2
    refine Outcome.Good.bind (insertIdOrPop_good hrep (r := { r with pool := p2 }) h2 l2 rfl rfl rfl k2 hs') ?_
    rintro ⟨r3, id⟩ ⟨L', rows', S', hreg, hrep'⟩
    simp only at hreg hrep' ⊢
    have hlk : lookup r3 id = .ok { id := id, values := none } := by
      unfold lookup
      have : id < rows'.length := by rw [hrep'.len]; exact lt_of_some hreg.get
      rw [SAV.get_spec hrep'.pool, List.getElem?_eq_getElem this]; rfl
    rw [hlk]
    simp only [ok_bind]
    exact ⟨s', L', rows', S', hsucc, hreg, hrep', ⟨hreg.get, by intro vs hv; simp at hv; exact hv.symm⟩⟩
  · rw [if_neg hax]
    unfold succPlain
    rw [hsz]
    obtain ⟨p2, row2, e2, h2, l2, k2⟩ := applyPacked_spec hid hs.1 o.effects { r with pool := p1 } row s hrep.ctx hr1 h1 hper1
      hpack (hwf.effFact o ho) (hwf.effCond o ho)
    rw [e2]
    simp only [Outcome.ofOption, ok_bind]
    have hse : s' = applyEffs s o.effects s := by
      unfold Axioms.evaluate at ev
      rw [if_neg hax] at ev
      exact (Option.some.inj ev).symm
    rw [← hse] at k2
    refine Outcome.Good.bind (insertIdOrPop_good hrep (r := { r with pool := p2 }) h2 l2 rfl rfl rfl k2 hs') ?_
    rintro ⟨r3, id⟩ ⟨L', rows', S', hreg, hrep'⟩
    simp only at hreg hrep' ⊢
    have hlk : lookup r3 id = .ok { id := id, values := none } := by
      unfold lookup
      have : id < rows'.length := by rw [hrep'.len]; exact lt_of_some hreg.get
      rw [SAV.get_spec hrep'.pool, List.getElem?_eq_getElem this]; rfl
    rw [hlk]
    simp only [ok_bind]
    exact ⟨s', L', rows', S', hsucc, hreg, hrep', ⟨hreg.get, by intro vs hv; simp at hv⟩⟩

theorem getInitial_good {hash t} (hwf : t.WF) {r : Reg} {L rows S} (hrep : RegRep hash t r L rows S) :
    (getInitial hash t r).Good (fun q => ∃ L' rows' S', Register L t.init q.2.id L' ∧
      RegRep hash t q.1 L' rows' S' ∧ HandleOk L' q.2 t.init) := by
  unfold getInitial
  cases hi : r.initial with
  | some h =>
    obtain ⟨g1, g2⟩ := hrep.init h hi
    exact ⟨L, rows, S, Or.inl ⟨g1, rfl⟩, hrep, ⟨g1, by intro vs hv; simp only at hv; rw [g2] at hv; cases hv⟩⟩
  | none =>
    simp only
    obtain ⟨buf, e1, k1⟩ := packAll_spec hrep.ctx t.init 0 _ _ (Packs.zero_buf hrep.ctx) (by simp [hwf.init.1]) (by
      intro i x rg hx hrg
      simp at hrg
      obtain ⟨d, hd, rfl⟩ := hrg
      exact hwf.init.2 i x d hx hd)
    simp only [List.take_zero, List.nil_append] at k1
    rw [e1]
    simp only [Outcome.ofOption, ok_bind]
    obtain ⟨p1, e2, h2, l2⟩ := SAV.push_spec hrep.pool (x := buf) (by rw [k1.len, hrep.per])
    rw [e2]
    simp only [ok_bind]
    refine Outcome.Good.bind (insertIdOrPop_good hrep (r := { r with pool := p1, initial := none }) h2
      (by simp only; rw [l2]; exact hrep.per) rfl rfl hi.symm k1 hwf.init) ?_
    rintro ⟨r3, id⟩ ⟨L', rows', S', hreg, hrep'⟩
    simp only at hreg hrep' ⊢
    have hlk : lookup r3 id = .ok { id := id, values := none } := by
      unfold lookup
      have : id < rows'.length := by rw [hrep'.len]; exact lt_of_some hreg.get
      rw [SAV.get_spec hrep'.pool, List.getElem?_eq_getElem this]; rfl
    rw [hlk]
    simp only [ok_bind]
    refine ⟨L', rows', S', hreg, ?_, ⟨hreg.get, by intro vs hv; simp at hv⟩⟩
    exact ⟨hrep'.ctx, hrep'.pool, hrep'.per, hrep'.len, hrep'.packs, hrep'.nodup, hrep'.valid, hrep'.tab, hrep'.keys,
      by intro h hh; simp at hh; subst hh; exact ⟨hreg.get, rfl⟩⟩

theorem make_good {hash t} (hwf : t.WF) : ∃ r, Reg.make t = .ok r ∧ RegRep hash t r [] [] [] := by
  obtain ⟨p, hm, L⟩ := make_layout (ranges := t.vars.map (·.domain)) (by
    intro r hr
    simp at hr
    obtain ⟨d, hd, rfl⟩ := hr
    exact hwf.domains d hd)
  refine ⟨_, by unfold Reg.make; rw [hm]; rfl, ?_⟩
  refine ⟨⟨?_, L, hm⟩, SAV.empty_rep _ _, rfl, rfl, by simp, by simp, by simp, Rep.empty _ _, by simp [keysUpTo], by simp⟩
  intro r hr
  simp at hr
  obtain ⟨d, hd, rfl⟩ := hr
  exact hwf.domains d hd

end Verif.Registry
