import Verif.Lemmas.BuildFire

/-
Lemmas about firing joins and products.
-/
namespace Verif.BuildModel
open Verif.Datalog
variable {P V O : Type} [DecidableEq P] [DecidableEq V] [DecidableEq O]

theorem ruleKey_join {r : Datalog.Rule P V O} (ht : r.type = .join) {c d : SymAtom P V O} (hc : r.conditions = [c, d]) {j : Nat} (a : GAtom P O) :
    ruleKey (convert r) j a = keyOf (keyPositions (convert r) (conv r.effect c) (conv r.effect d) (conv r.effect (if j = 0 then c else d))) a := by
  unfold ruleKey
  rw [convert_conditions, hc, show (convert r).type = .join from ht]
  simp only [List.map_cons, List.map_nil]
  split <;> rfl

/-- keys of atoms for the two conditions of a join -/
theorem ruleKey_eq {r : Datalog.Rule P V O} (hr : r.Normal) (ht : r.type = .join) {j : Nat} {c d : SymAtom P V O} (hj : r.conditions[j]? = some c) (hd : r.conditions[1 - j]? = some d) {τ τ' : V → O} {k k' : List O}
    (h1 : ruleKey (convert r) j (c.inst τ) = some k) (h2 : ruleKey (convert r) (1 - j) (d.inst τ') = some k') : k = k' ↔ ∀ v ∈ c.vars, v ∈ d.vars → v ∈ r.effect.vars → τ v = τ' v := by
  obtain ⟨c0, d0, hcd, _⟩ := hr.join ht
  rw [hcd] at hj hd
  rw [ruleKey_join ht hcd] at h1 h2
  match j with
  | 0 =>
    simp only [List.getElem?_cons_zero, Option.some.injEq, Nat.sub_zero, List.getElem?_cons_succ] at hj hd
    subst hj hd
    simp only [if_true, Nat.sub_zero, Nat.one_ne_zero, if_false] at h1 h2
    exact keyOf_eq hr.effect h1 h2
  | 1 =>
    simp only [List.getElem?_cons_zero, Option.some.injEq, Nat.sub_self, List.getElem?_cons_succ] at hj hd
    subst hj hd
    simp only [if_true, Nat.sub_self, Nat.one_ne_zero, if_false] at h1 h2
    rw [eq_comm, keyOf_eq hr.effect h2 h1]
    exact ⟨fun h v hv hv' he => (h v hv' hv he).symm, fun h v hv hv' he => (h v hv' hv he).symm⟩
  | j + 2 => simp at hj

theorem ruleKey_defined {r : Datalog.Rule P V O} (hr : r.Normal) {j : Nat} {c : SymAtom P V O} (hj : r.conditions[j]? = some c) (τ : V → O) : ∃ k, ruleKey (convert r) j (c.inst τ) = some k := by
  cases ht : r.type with
  | join =>
    obtain ⟨c0, d0, hcd, _⟩ := hr.join ht
    rw [ruleKey_join ht hcd]
    rw [hcd] at hj
    match j with
    | 0 =>
      simp only [List.getElem?_cons_zero, Option.some.injEq] at hj
      subst hj
      exact keyOf_defined hr.effect (.inl rfl) τ
    | 1 =>
      simp only [List.getElem?_cons_zero, Option.some.injEq, List.getElem?_cons_succ] at hj
      subst hj
      exact keyOf_defined hr.effect (.inr rfl) τ
    | j + 2 => simp at hj
  | product =>
    refine ⟨[], ?_⟩
    unfold ruleKey
    rw [show (convert r).type = .product from ht]
  | project =>
    refine ⟨[], ?_⟩
    unfold ruleKey
    rw [show (convert r).type = .project from ht]

theorem fire_join {r : Datalog.Rule P V O} (hr : r.Normal) (ht : r.type = .join) {idx : Index P O} (hidx : IdxOK r idx) {j : Nat} {c : SymAtom P V O} (hj : r.conditions[j]? = some c) (τ : V → O) :
    ∃ es, fire (convert r) idx j (c.inst τ) = some es ∧ ∀ x, x ∈ es ↔ ∃ σ, Supports r idx j (c.inst τ) σ ∧ x = r.effect.inst σ := by
  obtain ⟨c0, d0, hcd, _⟩ := hr.join ht
  have hj2 : j < 2 := by
    have := (List.getElem?_eq_some_iff.mp hj).1
    rw [hcd] at this
    simpa using this
  obtain ⟨d, hd⟩ : ∃ d, r.conditions[1 - j]? = some d := by
    have : 1 - j < r.conditions.length := by rw [hcd]; simp; omega
    exact ⟨_, List.getElem?_eq_getElem this⟩
  have hcond : ∀ (j' : Nat) (e : SymAtom P V O), r.conditions[j']? = some e → (j' = j ∧ e = c) ∨ (j' = 1 - j ∧ j' ≠ j ∧ e = d) := by
    intro j' e he
    have := (List.getElem?_eq_some_iff.mp he).1
    rw [hcd] at this
    simp only [List.length_cons, List.length_nil] at this
    by_cases hjj : j' = j
    · subst hjj
      rw [hj, Option.some.injEq] at he
      exact .inl ⟨rfl, he.symm⟩
    · have h1 : j' = 1 - j := by omega
      refine .inr ⟨h1, hjj, ?_⟩
      rw [h1, hd, Option.some.injEq] at he
      exact he.symm
  have hmem : ∀ e ∈ r.conditions, e = c ∨ e = d := by
    intro e he
    obtain ⟨j', hj'⟩ := List.mem_iff_getElem?.mp he
    rcases hcond j' e hj' with h | h
    · exact .inl h.2
    · exact .inr h.2.2
  obtain ⟨l, hl⟩ : ∃ l, idx[1 - j]? = some l := by
    have : 1 - j < idx.length := by rw [hidx.length, hcd]; simp; omega
    exact ⟨_, List.getElem?_eq_getElem this⟩
  obtain ⟨k, hk⟩ := ruleKey_defined hr hj τ
  have hcomp : ∀ (τ' σ : V → O), (∀ v ∈ c.vars, v ∈ r.effect.vars → τ v = σ v) → (∀ v ∈ d.vars, v ∈ r.effect.vars → τ' v = σ v) →
      Completed r.effect τ (fun v => v ∈ c.vars ∧ v ∈ r.effect.vars) (bindings (conv r.effect d) (d.inst τ')) σ := by
    intro τ' σ h1 h2
    refine ⟨fun v hv => (h1 v hv.1 hv.2).symm, agrees_bindings hr.effect h2, fun v hv => ?_⟩
    obtain ⟨e, he, hve⟩ := hr.bound v hv
    rcases hmem e he with rfl | rfl
    · exact .inl ⟨hve, hv⟩
    · exact .inr (bindings_var hr.effect hve hv)
  have hin : ∀ bs ∈ (l.filter (fun e => e.1 == k)).map (fun e => bindings (conv r.effect d) e.2), ∃ τ', bs = bindings (conv r.effect d) (d.inst τ') ∧ (k, d.inst τ') ∈ l ∧ ∀ v ∈ c.vars, v ∈ d.vars → v ∈ r.effect.vars → τ v = τ' v := by
    intro bs hbs
    obtain ⟨x, hx, rfl⟩ := List.mem_map.mp hbs
    obtain ⟨hxl, hxk⟩ := List.mem_filter.mp hx
    rw [beq_iff_eq] at hxk
    obtain ⟨⟨τ', hτ'⟩, hkey⟩ := hidx.entries (1 - j) d l hd hl x hxl
    rw [← hτ'] at hkey ⊢
    refine ⟨τ', rfl, by rw [hτ', ← hxk]; exact hxl, ?_⟩
    exact (ruleKey_eq hr ht hj hd hk hkey).mp hxk.symm
  obtain ⟨es, h1, h2⟩ := emitAll_spec hr.effect ((l.filter (fun e => e.1 == k)).map (fun e => bindings (conv r.effect d) e.2)) _ (good_first (c := c) hr.effect τ) (by
    intro bs hbs
    obtain ⟨τ', rfl, _, hag⟩ := hin bs hbs
    refine ⟨fun v => if v ∈ c.vars then τ v else τ' v, hcomp τ' _ (fun v hv _ => by rw [if_pos hv]) (fun v hv hve => ?_)⟩
    by_cases hvc : v ∈ c.vars
    · rw [if_pos hvc]
      exact (hag v hvc hv hve).symm
    · rw [if_neg hvc])
  refine ⟨es, ?_, fun x => ?_⟩
  · unfold fire
    rw [convert_conditions, List.getElem?_map, hj]
    simp only [Option.map_some]
    rw [show (convert r).type = .join from ht]
    simp only []
    rw [hk, List.getElem?_map, hd, hl]
    exact h1
  · rw [h2]
    constructor
    · rintro ⟨bs, hbs, σ, hσ, rfl⟩
      obtain ⟨τ', rfl, hmem', _⟩ := hin bs hbs
      refine ⟨σ, fun j' e he => ?_, rfl⟩
      rcases hcond j' e he with ⟨rfl, rfl⟩ | ⟨h3, h4, rfl⟩
      · exact ⟨τ, fun v hv hv' => (hσ.same v ⟨hv, hv'⟩).symm, .inl ⟨rfl, rfl⟩⟩
      · refine ⟨τ', fun v hv hv' => ?_, .inr ⟨h4, l, k, h3 ▸ hl, hmem'⟩⟩
        obtain ⟨n, hn⟩ := mem_vars'.mp hv'
        obtain ⟨w, hw, hw'⟩ := hσ.agrees (n, τ' v) ((mem_bindings hr.effect).mpr ⟨v, hv, hn, rfl⟩)
        simp only at hw hw'
        rw [hn, Option.some.injEq, Term.var.injEq] at hw
        rw [hw', hw]
    · rintro ⟨σ, hσ, rfl⟩
      obtain ⟨τ1, h3, h4⟩ := hσ j c hj
      obtain ⟨τ2, h5, h6⟩ := hσ (1 - j) d hd
      rcases h4 with ⟨_, h4⟩ | ⟨h4, _⟩
      · rcases h6 with ⟨h6, _⟩ | ⟨_, l', k', hl', hk'⟩
        · omega
        · rw [hl, Option.some.injEq] at hl'
          subst hl'
          have hc1 : ∀ v ∈ c.vars, v ∈ r.effect.vars → τ v = σ v := fun v hv hve => by rw [← h3 v hv hve, inst_inj h4 v hv]
          have hkk : k = k' := (ruleKey_eq hr ht hj hd hk (hidx.entries (1 - j) d l hd hl _ hk').2).mpr fun v hv hv' hve => by rw [hc1 v hv hve, h5 v hv' hve]
          subst hkk
          exact ⟨_, List.mem_map.mpr ⟨_, List.mem_filter.mpr ⟨hk', by simp⟩, rfl⟩, σ, hcomp τ2 σ hc1 h5, rfl⟩
      · exact absurd rfl h4

theorem mem_product {β : Type} : ∀ {fs : List (List β)} {x : List β}, x ∈ product fs ↔ List.Forall₂ (fun f b => b ∈ f) fs x
  | [], x => by
    rw [product, List.mem_singleton]
    constructor
    · rintro rfl
      exact .nil
    · intro h
      cases h
      rfl
  | f :: fs, x => by
    rw [product, List.mem_flatMap]
    constructor
    · rintro ⟨b, hb, hx⟩
      obtain ⟨y, hy, rfl⟩ := List.mem_map.mp hx
      exact .cons hb (mem_product.mp hy)
    · intro h
      cases h with
      | cons h1 h2 => exact ⟨_, h1, List.mem_map.mpr ⟨_, mem_product.mpr h2, rfl⟩⟩

theorem forall₂_choose {β γ δ : Type} (key : β → Nat) {R : β → γ → δ → Prop} [Nonempty δ] {L : List β} {x : List γ} (h : List.Forall₂ (fun y z => ∃ τ, R y z τ) L x) (hn : (L.map key).Nodup) : ∃ T : Nat → δ, List.Forall₂ (fun y z => R y z (T (key y))) L x := by
  induction h with
  | nil => exact ⟨fun _ => Classical.arbitrary δ, .nil⟩
  | @cons y z L x h1 h2 ih =>
    rw [List.map_cons, List.nodup_cons] at hn
    obtain ⟨T, hT⟩ := ih hn.2
    obtain ⟨τ, hτ⟩ := h1
    refine ⟨Function.update T (key y) τ, .cons (by rw [Function.update_self]; exact hτ) ?_⟩
    have hne : ∀ w ∈ L, key w ≠ key y := fun w hw he => hn.1 (he ▸ List.mem_map_of_mem hw)
    clear h2 ih hn
    induction hT with
    | nil => exact .nil
    | @cons w z' L x h3 _ ih =>
      refine .cons ?_ (ih fun w' hw' => hne w' (by simp [hw']))
      rw [Function.update_of_ne (hne w (by simp))]
      exact h3

theorem forall₂_mem_right {β γ : Type} {R : β → γ → Prop} {L : List β} {x : List γ} (h : List.Forall₂ R L x) {z : γ} (hz : z ∈ x) : ∃ y ∈ L, R y z := by
  induction h with
  | nil => simp at hz
  | cons h1 _ ih =>
    rcases List.mem_cons.mp hz with rfl | hz
    · exact ⟨_, by simp, h1⟩
    · obtain ⟨y, hy, h⟩ := ih hz
      exact ⟨y, by simp [hy], h⟩

theorem forall₂_mem_left {β γ : Type} {R : β → γ → Prop} {L : List β} {x : List γ} (h : List.Forall₂ R L x) {y : β} (hy : y ∈ L) : ∃ z ∈ x, R y z := by
  induction h with
  | nil => simp at hy
  | cons h1 _ ih =>
    rcases List.mem_cons.mp hy with rfl | hy
    · exact ⟨_, by simp, h1⟩
    · obtain ⟨z, hz, h⟩ := ih hy
      exact ⟨z, by simp [hz], h⟩

theorem forall₂_imp_mem {β γ : Type} {R S : β → γ → Prop} {L : List β} {x : List γ} (h : ∀ y z, y ∈ L → R y z → S y z) (hR : List.Forall₂ R L x) : List.Forall₂ S L x := by
  induction hR with
  | nil => exact .nil
  | cons h1 _ ih => exact .cons (h _ _ (by simp) h1) (ih fun y z hy => h y z (by simp [hy]))

theorem forall₂_map_left {β γ δ : Type} {R : γ → δ → Prop} {f : β → γ} {L : List β} {x : List δ} (h : List.Forall₂ (fun y z => R (f y) z) L x) : List.Forall₂ R (L.map f) x := by
  induction h with
  | nil => exact .nil
  | cons h1 _ ih => exact .cons h1 ih

theorem forall₂_of_map_left {β γ δ : Type} {R : γ → δ → Prop} {f : β → γ} : ∀ {L : List β} {x : List δ}, List.Forall₂ R (L.map f) x → List.Forall₂ (fun y z => R (f y) z) L x
  | [], _, h => by cases h; exact .nil
  | y :: L, _, h => by
    rw [List.map_cons] at h
    cases h with
    | cons h1 h2 => exact .cons h1 (forall₂_of_map_left h2)

theorem fire_product {r : Datalog.Rule P V O} (hr : r.Normal) (ht : r.type = .product) {idx : Index P O} (hidx : IdxOK r idx) {j : Nat} {c : SymAtom P V O} (hj : r.conditions[j]? = some c) (τ : V → O)
    (hne : ∀ l, idx[j]? = some l → l ≠ []) :
    ∃ es, fire (convert r) idx j (c.inst τ) = some es ∧ ∀ x, x ∈ es ↔ ∃ σ, Supports r idx j (c.inst τ) σ ∧ x = r.effect.inst σ := by
  classical
  obtain ⟨_, hdis, _⟩ := hr.product ht
  unfold fire
  rw [convert_conditions, List.getElem?_map, hj]
  simp only [Option.map_some]
  rw [show (convert r).type = .product from ht]
  simp only []
  have hex : ∀ (j' : Nat) (c' : SymAtom P V O), r.conditions[j']? = some c' → ∃ l, idx[j']? = some l := by
    intro j' c' h
    have := (List.getElem?_eq_some_iff.mp h).1
    rw [← hidx.length] at this
    exact ⟨_, List.getElem?_eq_getElem this⟩
  by_cases hemp : idx.any (fun l => l.isEmpty) = true
  · rw [if_pos hemp]
    refine ⟨[], rfl, fun x => ⟨by simp, ?_⟩⟩
    rintro ⟨σ, hσ, _⟩
    obtain ⟨l, hl, hl'⟩ := List.any_eq_true.mp hemp
    obtain ⟨j', hj'⟩ := List.mem_iff_getElem?.mp hl
    have hlt := (List.getElem?_eq_some_iff.mp hj').1
    rw [hidx.length] at hlt
    obtain ⟨τ', _, ⟨rfl, _⟩ | ⟨_, l', k, h1, h2⟩⟩ := hσ j' _ (List.getElem?_eq_getElem hlt)
    · exact absurd (List.isEmpty_iff.mp hl') (hne l hj')
    · rw [hj', Option.some.injEq] at h1
      subst h1
      rw [List.isEmpty_iff.mp hl'] at h2
      simp at h2
  · rw [if_neg hemp]
    -- the pairs of other conditions and their atoms
    let L := (((convert r).conditions.zip idx).zipIdx).filter (fun x => x.2 != j)
    have hLmem : ∀ y, y ∈ L ↔ ∃ c', r.conditions[y.2]? = some c' ∧ y.1.1 = conv r.effect c' ∧ idx[y.2]? = some y.1.2 ∧ y.2 ≠ j := by
      rintro ⟨⟨cc, l⟩, j'⟩
      simp only [L, List.mem_filter, bne_iff_ne]
      rw [List.mem_zipIdx_iff_getElem?, List.getElem?_zip_eq_some, convert_conditions, List.getElem?_map]
      constructor
      · rintro ⟨⟨h1, h2⟩, h3⟩
        obtain ⟨c', hc', he⟩ := Option.map_eq_some_iff.mp h1
        exact ⟨c', hc', he.symm, h2, h3⟩
      · rintro ⟨c', h1, h2, h3, h4⟩
        exact ⟨⟨by rw [h1, h2]; rfl, h3⟩, h4⟩
    have hLnd : (L.map (·.2)).Nodup := by
      have h1 : (((convert r).conditions.zip idx).zipIdx.map (·.2)).Nodup := by
        rw [List.zipIdx_map_snd]
        exact List.nodup_range'
      exact (List.filter_sublist.map _).nodup h1
    haveI : Nonempty (V → O) := ⟨τ⟩
    have hbss : ∀ bs, bs ∈ (product (factors (convert r) idx j)).map (·.flatten) ↔ ∃ T : Nat → V → O, (∀ (j' : Nat) (c' : SymAtom P V O), r.conditions[j']? = some c' → j' ≠ j → ∃ l k, idx[j']? = some l ∧ (k, c'.inst (T j')) ∈ l) ∧
        ∃ x, bs = x.flatten ∧ List.Forall₂ (fun (y : (CAtom P V O × List (List O × GAtom P O)) × Nat) z => ∃ c', r.conditions[y.2]? = some c' ∧ z = bindings (conv r.effect c') (c'.inst (T y.2))) L x := by
      intro bs
      rw [List.mem_map]
      constructor
      · rintro ⟨x, hx, rfl⟩
        have h1 := forall₂_of_map_left (mem_product.mp hx)
        have h2 : List.Forall₂ (fun (y : (CAtom P V O × List (List O × GAtom P O)) × Nat) z => ∃ τ' : V → O, ∃ c' k, r.conditions[y.2]? = some c' ∧ idx[y.2]? = some y.1.2 ∧ (k, c'.inst τ') ∈ y.1.2 ∧ z = bindings (conv r.effect c') (c'.inst τ')) L x := by
          refine forall₂_imp_mem ?_ h1
          intro y z hy hmem
          obtain ⟨c', hc', he, hl, hyj⟩ := (hLmem y).mp hy
          obtain ⟨e, hel, rfl⟩ := List.mem_map.mp hmem
          obtain ⟨⟨τ', hτ'⟩, _⟩ := hidx.entries y.2 c' y.1.2 hc' hl e hel
          exact ⟨τ', c', e.1, hc', hl, by rw [hτ']; exact hel, by rw [hτ', he]⟩
        obtain ⟨T, hT⟩ := forall₂_choose (fun y => y.2) h2 hLnd
        refine ⟨T, fun j' c' hc' hjj => ?_, x, rfl, hT.imp fun y z ⟨c', k, h3, _, _, h4⟩ => ⟨c', h3, h4⟩⟩
        obtain ⟨l, hl⟩ := hex j' c' hc'
        obtain ⟨z, _, c2, k, h3, h4, h5, _⟩ := forall₂_mem_left hT ((hLmem ((conv r.effect c', l), j')).mpr ⟨c', hc', rfl, hl, hjj⟩)
        simp only at h3 h4 h5
        rw [hc', Option.some.injEq] at h3
        subst h3
        exact ⟨l, k, hl, h5⟩
      · rintro ⟨T, h1, x, rfl, hx⟩
        refine ⟨x, mem_product.mpr (forall₂_map_left ?_), rfl⟩
        refine forall₂_imp_mem ?_ hx
        rintro y z hy ⟨c', hc', rfl⟩
        obtain ⟨c2, hc2, he, hl, hyj⟩ := (hLmem y).mp hy
        rw [hc', Option.some.injEq] at hc2
        subst hc2
        obtain ⟨l, k, h2, h3⟩ := h1 y.2 c' hc' hyj
        rw [hl, Option.some.injEq] at h2
        subst h2
        exact List.mem_map.mpr ⟨_, h3, by rw [he]⟩
    have hcomp : ∀ (T : Nat → V → O) (x : List (List (Nat × O))) (σ : V → O), List.Forall₂ (fun (y : (CAtom P V O × List (List O × GAtom P O)) × Nat) z => ∃ c', r.conditions[y.2]? = some c' ∧ z = bindings (conv r.effect c') (c'.inst (T y.2))) L x →
        (∀ v ∈ c.vars, v ∈ r.effect.vars → τ v = σ v) → (∀ (j' : Nat) (c' : SymAtom P V O), r.conditions[j']? = some c' → j' ≠ j → ∀ v ∈ c'.vars, v ∈ r.effect.vars → T j' v = σ v) →
        Completed r.effect τ (fun v => v ∈ c.vars ∧ v ∈ r.effect.vars) x.flatten σ := by
      intro T x σ hx h1 h2
      refine ⟨fun v hv => (h1 v hv.1 hv.2).symm, fun b hb => ?_, fun v hv => ?_⟩
      · obtain ⟨z, hz, hbz⟩ := List.mem_flatten.mp hb
        obtain ⟨y, hy, c', hc', rfl⟩ := forall₂_mem_right hx hz
        obtain ⟨_, _, _, _, hyj⟩ := (hLmem y).mp hy
        exact agrees_bindings hr.effect (h2 y.2 c' hc' hyj) b hbz
      · obtain ⟨e, he, hve⟩ := hr.bound v hv
        obtain ⟨j', hj'⟩ := List.mem_iff_getElem?.mp he
        by_cases hjj : j' = j
        · subst hjj
          rw [hj, Option.some.injEq] at hj'
          exact .inl ⟨hj' ▸ hve, hv⟩
        · obtain ⟨l, hl⟩ := hex j' e hj'
          obtain ⟨z, hz, c', hc', rfl⟩ := forall₂_mem_left hx ((hLmem ((conv r.effect e, l), j')).mpr ⟨e, hj', rfl, hl, hjj⟩)
          simp only at hc'
          rw [hj', Option.some.injEq] at hc'
          subst hc'
          obtain ⟨b, hb, hb'⟩ := bindings_var hr.effect (τ := T j') hve hv
          exact .inr ⟨b, List.mem_flatten.mpr ⟨_, hz, hb⟩, hb'⟩
    -- values that agree with those of all conditions
    have hglue : ∀ T : Nat → V → O, ∃ σ : V → O, (∀ v ∈ c.vars, τ v = σ v) ∧ ∀ (j' : Nat) (c' : SymAtom P V O), r.conditions[j']? = some c' → j' ≠ j → ∀ v ∈ c'.vars, T j' v = σ v := by
      intro T
      have huniq : ∀ {v : V} {i i' : Nat} {d d' : SymAtom P V O}, r.conditions[i]? = some d → r.conditions[i']? = some d' → v ∈ d.vars → v ∈ d'.vars → i = i' := by
        intro v i i' d d' h1 h2 h3 h4
        obtain ⟨h5, rfl⟩ := List.getElem?_eq_some_iff.mp h1
        obtain ⟨h6, rfl⟩ := List.getElem?_eq_some_iff.mp h2
        by_contra hii
        rcases Nat.lt_or_gt_of_ne hii with h | h
        · exact List.pairwise_iff_getElem.mp hdis i i' h5 h6 h v h3 h4
        · exact List.pairwise_iff_getElem.mp hdis i' i h6 h5 h v h4 h3
      refine ⟨fun v => if h : ∃ (i : Nat) (d : SymAtom P V O), r.conditions[i]? = some d ∧ v ∈ d.vars then (Function.update T j τ) h.choose v else τ v, fun v hv => ?_, fun j' c' hc' hjj v hv => ?_⟩
      · have h : ∃ (i : Nat) (d : SymAtom P V O), r.conditions[i]? = some d ∧ v ∈ d.vars := ⟨j, c, hj, hv⟩
        simp only [dif_pos h]
        obtain ⟨d, hd1, hd2⟩ := h.choose_spec
        rw [← huniq hj hd1 hv hd2, Function.update_self]
      · have h : ∃ (i : Nat) (d : SymAtom P V O), r.conditions[i]? = some d ∧ v ∈ d.vars := ⟨j', c', hc', hv⟩
        simp only [dif_pos h]
        obtain ⟨d, hd1, hd2⟩ := h.choose_spec
        rw [← huniq hc' hd1 hv hd2, Function.update_of_ne hjj]
    obtain ⟨es, h1, h2⟩ := emitAll_spec hr.effect ((product (factors (convert r) idx j)).map (·.flatten)) _ (good_first (c := c) hr.effect τ) (by
      intro bs hbs
      obtain ⟨T, _, x, rfl, hx⟩ := (hbss bs).mp hbs
      obtain ⟨σ, hσ1, hσ2⟩ := hglue T
      exact ⟨σ, hcomp T x σ hx (fun v hv _ => hσ1 v hv) (fun j' c' hc' hjj v hv _ => hσ2 j' c' hc' hjj v hv)⟩)
    refine ⟨es, h1, fun x => ?_⟩
    rw [h2]
    constructor
    · rintro ⟨bs, hbs, σ, hσ, rfl⟩
      obtain ⟨T, hT, x, rfl, hx⟩ := (hbss bs).mp hbs
      refine ⟨σ, fun j' e he => ?_, rfl⟩
      by_cases hjj : j' = j
      · subst hjj
        rw [hj, Option.some.injEq] at he
        subst he
        exact ⟨τ, fun v hv hv' => (hσ.same v ⟨hv, hv'⟩).symm, .inl ⟨rfl, rfl⟩⟩
      · obtain ⟨l, k, hl, hk⟩ := hT j' e he hjj
        refine ⟨T j', fun v hv hv' => ?_, .inr ⟨hjj, l, k, hl, hk⟩⟩
        obtain ⟨z, hz, c', hc', rfl⟩ := forall₂_mem_left hx ((hLmem ((conv r.effect e, l), j')).mpr ⟨e, he, rfl, hl, hjj⟩)
        simp only at hc'
        rw [he, Option.some.injEq] at hc'
        subst hc'
        obtain ⟨n, hn⟩ := mem_vars'.mp hv'
        obtain ⟨w, hw, hw'⟩ := hσ.agrees (n, T j' v) (List.mem_flatten.mpr ⟨_, hz, (mem_bindings hr.effect).mpr ⟨v, hv, hn, rfl⟩⟩)
        simp only at hw hw'
        rw [hn, Option.some.injEq, Term.var.injEq] at hw
        rw [hw', hw]
    · rintro ⟨σ, hσ, rfl⟩
      have hch : ∀ j' : Nat, ∃ τ' : V → O, ∀ c', r.conditions[j']? = some c' → (∀ v ∈ c'.vars, v ∈ r.effect.vars → τ' v = σ v) ∧ ((j' = j ∧ c'.inst τ' = c.inst τ) ∨ (j' ≠ j ∧ ∃ l k, idx[j']? = some l ∧ (k, c'.inst τ') ∈ l)) := by
        intro j'
        cases hc' : r.conditions[j']? with
        | none => exact ⟨τ, fun c' h => by cases h⟩
        | some c' =>
          obtain ⟨τ', h3⟩ := hσ j' c' hc'
          exact ⟨τ', fun d hd => by rw [Option.some.injEq] at hd; exact hd ▸ h3⟩
      choose T hT using hch
      have hx : List.Forall₂ (fun (y : (CAtom P V O × List (List O × GAtom P O)) × Nat) z => ∃ c', r.conditions[y.2]? = some c' ∧ z = bindings (conv r.effect c') (c'.inst (T y.2))) L
          (L.map (fun y => match r.conditions[y.2]? with | some c' => bindings (conv r.effect c') (c'.inst (T y.2)) | none => [])) := by
        rw [List.forall₂_map_right_iff, List.forall₂_same]
        intro y hy
        obtain ⟨c', hc', _⟩ := (hLmem y).mp hy
        exact ⟨c', hc', by rw [hc']⟩
      refine ⟨_, (hbss _).mpr ⟨T, fun j' c' hc' hjj => ?_, _, rfl, hx⟩, σ, hcomp T _ σ hx (fun v hv hve => ?_) (fun j' c' hc' _ v hv hve => (hT j' c' hc').1 v hv hve), rfl⟩
      · rcases (hT j' c' hc').2 with ⟨h, _⟩ | ⟨_, h⟩
        · exact absurd h hjj
        · exact h
      · rcases (hT j c hj).2 with ⟨_, h⟩ | ⟨h, _⟩
        · rw [← inst_inj h v hv]
          exact (hT j c hj).1 v hv hve
        · exact absurd rfl h

/-- what firing a rule does -/
theorem fire_spec {r : Datalog.Rule P V O} (hr : r.Normal) {idx : Index P O} (hidx : IdxOK r idx) {j : Nat} {c : SymAtom P V O} (hj : r.conditions[j]? = some c) (τ : V → O) (hne : ∀ l, idx[j]? = some l → l ≠ []) :
    ∃ es, fire (convert r) idx j (c.inst τ) = some es ∧ ∀ x, x ∈ es ↔ ∃ σ, Supports r idx j (c.inst τ) σ ∧ x = r.effect.inst σ := by
  cases ht : r.type with
  | join => exact fire_join hr ht hidx hj τ
  | product => exact fire_product hr ht hidx hj τ hne
  | project => exact fire_project hr ht hj τ

end Verif.BuildModel
