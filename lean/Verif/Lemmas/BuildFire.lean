import Verif.Model.BuildModel
import Verif.Lemmas.MasBasic

/-
Lemmas about firing one rule of the exploration.
-/
namespace Verif.BuildModel
open Verif.Datalog

section
variable {P V O : Type}

theorem var_unique : ∀ {l : List (Term V O)}, (l.filterMap Term.var?).Nodup → ∀ {n m : Nat} {v : V}, l[n]? = some (.var v) → l[m]? = some (.var v) → n = m
  | [], _, n, m, v, hn, _ => by simp at hn
  | t :: l, h, n, m, v, hn, hm => by
    have hmem : ∀ {k : Nat}, l[k]? = some (.var v) → v ∈ l.filterMap Term.var? := fun {k} hk => List.mem_filterMap.mpr ⟨_, List.mem_of_getElem? hk, rfl⟩
    cases n <;> cases m
    · rfl
    · rename_i m
      simp only [List.getElem?_cons_zero, Option.some.injEq, List.getElem?_cons_succ] at hn hm
      subst hn
      rw [List.filterMap_cons_some (f := Term.var?) (b := v) rfl, List.nodup_cons] at h
      exact absurd (hmem hm) h.1
    · rename_i n
      simp only [List.getElem?_cons_zero, Option.some.injEq, List.getElem?_cons_succ] at hn hm
      subst hm
      rw [List.filterMap_cons_some (f := Term.var?) (b := v) rfl, List.nodup_cons] at h
      exact absurd (hmem hn) h.1
    · simp only [List.getElem?_cons_succ] at hn hm
      have h' : (l.filterMap Term.var?).Nodup := by
        cases t with
        | var w => rw [List.filterMap_cons_some (f := Term.var?) (b := w) rfl, List.nodup_cons] at h; exact h.2
        | const o => rwa [List.filterMap_cons_none rfl] at h
      rw [var_unique h' hn hm]

theorem mem_vars {a : SymAtom P V O} {v : V} : v ∈ a.vars ↔ Term.var v ∈ a.args := by
  unfold SymAtom.vars
  rw [List.mem_filterMap]
  constructor
  · rintro ⟨t, ht, h⟩
    cases t with
    | var w =>
      simp only [Term.var?, Option.some.injEq] at h
      exact h ▸ ht
    | const o => simp [Term.var?] at h
  · exact fun h => ⟨_, h, rfl⟩

theorem mem_vars' {a : SymAtom P V O} {v : V} : v ∈ a.vars ↔ ∃ n : Nat, a.args[n]? = some (.var v) := by
  rw [mem_vars, List.mem_iff_getElem?]

theorem inst_congr {a : SymAtom P V O} {σ τ : V → O} (h : ∀ v ∈ a.vars, σ v = τ v) : a.inst σ = a.inst τ := by
  unfold SymAtom.inst
  congr 1
  refine List.map_congr_left fun t ht => ?_
  cases t with
  | var v => exact h v (mem_vars.mpr ht)
  | const o => rfl

theorem inst_inj {a : SymAtom P V O} {σ τ : V → O} (h : a.inst σ = a.inst τ) : ∀ v ∈ a.vars, σ v = τ v := by
  intro v hv
  unfold SymAtom.inst at h
  rw [GAtom.mk.injEq] at h
  exact List.map_inj_left.mp h.2 _ (mem_vars.mp hv)
end

section
variable {P V O : Type} [DecidableEq P] [DecidableEq V] [DecidableEq O]

/-- the condition as the code sees it -/
def conv (effect c : SymAtom P V O) : CAtom P V O := ⟨c.pred, c.args.map (convertArg effect)⟩

theorem position_some {e : SymAtom P V O} (he : e.vars.Nodup) {v : V} {n : Nat} : position e v = some n ↔ e.args[n]? = some (.var v) := by
  have hmem : ∀ m, m ∈ (e.args.zipIdx.filter (fun a => a.1 == .var v)).map (·.2) ↔ e.args[m]? = some (.var v) := by
    intro m
    simp only [List.mem_map, List.mem_filter, beq_iff_eq]
    constructor
    · rintro ⟨⟨t, k⟩, ⟨h1, h2⟩, rfl⟩
      simp only at h2
      rw [← h2]
      exact List.mem_zipIdx_iff_getElem?.mp h1
    · intro h
      exact ⟨(.var v, m), ⟨List.mem_zipIdx_iff_getElem?.mpr h, rfl⟩, rfl⟩
  unfold position
  constructor
  · intro h
    exact (hmem n).mp (List.mem_of_getLast? h)
  · intro h
    have h1 := (hmem n).mpr h
    cases hl : ((e.args.zipIdx.filter (fun a => a.1 == .var v)).map (·.2)).getLast? with
    | none =>
      rw [List.getLast?_eq_none_iff] at hl
      rw [hl] at h1
      simp at h1
    | some m =>
      have h2 := (hmem m).mp (List.mem_of_getLast? hl)
      rw [var_unique he h h2]

theorem convertArg_pos {e : SymAtom P V O} (he : e.vars.Nodup) {t : Term V O} {n : Nat} : convertArg e t = .pos n ↔ ∃ v, t = .var v ∧ e.args[n]? = some (.var v) := by
  cases t with
  | const o => simp [convertArg]
  | var v =>
    rw [convertArg]
    cases hp : position e v with
    | none =>
      simp only [reduceCtorEq, Term.var.injEq, false_iff, not_exists, not_and]
      rintro w rfl hw
      rw [(position_some he).mpr hw] at hp
      cases hp
    | some m =>
      simp only [Arg.pos.injEq, Term.var.injEq]
      rw [position_some he] at hp
      constructor
      · rintro rfl
        exact ⟨v, rfl, hp⟩
      · rintro ⟨w, rfl, hw⟩
        exact var_unique he hp hw

theorem mem_bindings {e c : SymAtom P V O} (he : e.vars.Nodup) {τ : V → O} {b : Nat × O} : b ∈ bindings (conv e c) (c.inst τ) ↔ ∃ v ∈ c.vars, e.args[b.1]? = some (.var v) ∧ b.2 = τ v := by
  unfold bindings conv SymAtom.inst
  simp only []
  rw [List.zip_map', List.filterMap_map, List.mem_filterMap]
  constructor
  · rintro ⟨t, ht, h⟩
    simp only [Function.comp] at h
    split at h
    · rename_i n hn
      rw [Option.some.injEq] at h
      subst h
      obtain ⟨v, rfl, hv⟩ := (convertArg_pos he).mp hn
      exact ⟨v, mem_vars.mpr ht, hv, rfl⟩
    · cases h
  · rintro ⟨v, hv, h1, h2⟩
    refine ⟨.var v, mem_vars.mp hv, ?_⟩
    have := (convertArg_pos he).mpr ⟨v, rfl, h1⟩
    simp only [Function.comp, this]
    rw [show Term.value τ (.var v) = b.2 from h2.symm]

theorem assign_length : ∀ (bs : List (Nat × O)) (slots : List (Option O)), (assign slots bs).length = slots.length
  | [], _ => rfl
  | b :: bs, slots => by rw [assign, assign_length bs]; simp

theorem assign_get (g : Nat → O → Prop) : ∀ (bs : List (Nat × O)) (slots : List (Option O)) (n : Nat), (∀ b ∈ bs, g b.1 b.2) → (∀ o o', g n o → g n o' → o = o') → n < slots.length →
    ((∃ b ∈ bs, b.1 = n) → ∃ o, g n o ∧ (assign slots bs)[n]? = some (some o)) ∧ ((¬ ∃ b ∈ bs, b.1 = n) → (assign slots bs)[n]? = slots[n]?)
  | [], slots, n, _, _, _ => ⟨by simp, fun _ => rfl⟩
  | b :: bs, slots, n, h, hg, hn => by
    obtain ⟨h1, h2⟩ := assign_get g bs (slots.set b.1 (some b.2)) n (fun x hx => h x (by simp [hx])) hg (by simpa using hn)
    rw [assign]
    by_cases hb : ∃ x ∈ bs, x.1 = n
    · obtain ⟨x, hx, hxn⟩ := hb
      exact ⟨fun _ => h1 ⟨x, hx, hxn⟩, fun hno => absurd ⟨x, by simp [hx], hxn⟩ hno⟩
    · rw [h2 hb]
      constructor
      · rintro ⟨x, hx, hxn⟩
        rcases List.mem_cons.mp hx with rfl | hx
        · refine ⟨x.2, hxn ▸ h x (by simp), ?_⟩
          rw [← hxn, List.getElem?_set_self (by omega)]
        · exact absurd ⟨x, hx, hxn⟩ hb
      · intro hno
        rw [List.getElem?_set_ne fun hx => hno ⟨b, by simp, hx⟩]

/-- the slots are right for the values `σ`, for the variables `D` -/
structure Good (e : SymAtom P V O) (σ : V → O) (D : V → Prop) (slots : List (Option O)) : Prop where
  length : slots.length = e.args.length
  const : ∀ (n : Nat) (o : O), e.args[n]? = some (.const o) → slots[n]? = some (some o)
  var : ∀ (n : Nat) (v : V), e.args[n]? = some (.var v) → D v → slots[n]? = some (some (σ v))

theorem good_start (e : SymAtom P V O) (σ : V → O) : Good e σ (fun _ => False) (e.args.map slot) := by
  refine ⟨by simp, fun n o h => ?_, fun _ _ _ h => h.elim⟩
  rw [List.getElem?_map, h]
  rfl

theorem good_change {e : SymAtom P V O} {σ σ' : V → O} {D D' : V → Prop} {slots : List (Option O)} (h : Good e σ D slots) (hD : ∀ v, D' v → D v ∧ σ' v = σ v) : Good e σ' D' slots :=
  ⟨h.length, h.const, fun n v h1 h2 => by rw [(hD v h2).2]; exact h.var n v h1 (hD v h2).1⟩

/-- bindings that agree with the values `σ` -/
def Agrees (e : SymAtom P V O) (σ : V → O) (bs : List (Nat × O)) : Prop := ∀ b ∈ bs, ∃ v, e.args[b.1]? = some (.var v) ∧ b.2 = σ v

theorem good_assign {e : SymAtom P V O} (he : e.vars.Nodup) {σ : V → O} {D : V → Prop} {slots : List (Option O)} (h : Good e σ D slots) {bs : List (Nat × O)} (hb : Agrees e σ bs) :
    Good e σ (fun v => D v ∨ ∃ b ∈ bs, e.args[b.1]? = some (.var v)) (assign slots bs) := by
  have hget : ∀ (n : Nat), n < slots.length → _ := fun n hn => assign_get (fun n o => ∃ v, e.args[n]? = some (.var v) ∧ o = σ v) bs slots n hb (by
    rintro o o' ⟨v, h1, rfl⟩ ⟨w, h2, rfl⟩
    rw [h1, Option.some.injEq, Term.var.injEq] at h2
    rw [h2]) hn
  have hlt : ∀ {n : Nat} {t : Term V O}, e.args[n]? = some t → n < slots.length := fun {n t} ht => by
    rw [h.length]
    exact (List.getElem?_eq_some_iff.mp ht).1
  refine ⟨by rw [assign_length]; exact h.length, fun n o hn => ?_, fun n v hn hD => ?_⟩
  · rw [(hget n (hlt hn)).2, h.const n o hn]
    rintro ⟨b, hb', rfl⟩
    obtain ⟨v, hv, _⟩ := hb b hb'
    rw [hn] at hv
    cases hv
  · by_cases hex : ∃ b ∈ bs, b.1 = n
    · obtain ⟨o, ⟨w, hw, rfl⟩, h2⟩ := (hget n (hlt hn)).1 hex
      rw [hn, Option.some.injEq, Term.var.injEq] at hw
      rw [h2, hw]
    · rw [(hget n (hlt hn)).2 hex]
      rcases hD with hD | ⟨b, hb', hbv⟩
      · exact h.var n v hn hD
      · by_cases hu : b.1 = n
        · exact absurd ⟨b, hb', hu⟩ hex
        · exact absurd (var_unique he hbv hn) hu

theorem good_emit {e : SymAtom P V O} {σ : V → O} {D : V → Prop} {slots : List (Option O)} (h : Good e σ D slots) (hD : ∀ v ∈ e.vars, D v) : emit e.pred slots = some (e.inst σ) := by
  have hs : slots = e.args.map (fun t => some (t.value σ)) := by
    refine List.ext_getElem? fun n => ?_
    rw [List.getElem?_map]
    cases hn : e.args[n]? with
    | none =>
      rw [List.getElem?_eq_none_iff] at hn
      rw [Option.map_none, List.getElem?_eq_none_iff, h.length]
      exact hn
    | some t =>
      cases t with
      | var v => rw [h.var n v hn (hD v (mem_vars'.mpr ⟨n, hn⟩))]; rfl
      | const o => rw [h.const n o hn]; rfl
  have : Mas.mapAll id slots = some (e.args.map (fun t => t.value σ)) := by
    rw [hs, Mas.mapAll_iff]
    induction e.args with
    | nil => exact .nil
    | cons t l ih => exact .cons rfl ih
  unfold emit
  rw [this]
  rfl

/-- bindings that complete the values of the variables `D` to the values `σ` -/
structure Completed (e : SymAtom P V O) (σ0 : V → O) (D : V → Prop) (bs : List (Nat × O)) (σ : V → O) : Prop where
  same : ∀ v, D v → σ v = σ0 v
  agrees : Agrees e σ bs
  all : ∀ v ∈ e.vars, D v ∨ ∃ b ∈ bs, e.args[b.1]? = some (.var v)

theorem completed_unique {e : SymAtom P V O} {σ0 : V → O} {D : V → Prop} {bs : List (Nat × O)} {σ σ' : V → O} (h : Completed e σ0 D bs σ) (h' : Completed e σ0 D bs σ') : e.inst σ = e.inst σ' := by
  refine inst_congr fun v hv => ?_
  rcases h.all v hv with hD | ⟨b, hb, hbv⟩
  · rw [h.same v hD, h'.same v hD]
  · obtain ⟨w, h1, h2⟩ := h.agrees b hb
    obtain ⟨w', h3, h4⟩ := h'.agrees b hb
    rw [hbv, Option.some.injEq, Term.var.injEq] at h1 h3
    rw [← h1] at h2
    rw [← h3] at h4
    rw [← h2, ← h4]

theorem emitAll_spec {e : SymAtom P V O} (he : e.vars.Nodup) {σ0 : V → O} {D : V → Prop} : ∀ (bss : List (List (Nat × O))) (slots : List (Option O)), Good e σ0 D slots → (∀ bs ∈ bss, ∃ σ, Completed e σ0 D bs σ) →
    ∃ es, emitAll e.pred bss slots = some es ∧ ∀ x, x ∈ es ↔ ∃ bs ∈ bss, ∃ σ, Completed e σ0 D bs σ ∧ x = e.inst σ
  | [], _, _, _ => ⟨[], rfl, by simp⟩
  | bs :: bss, slots, hg, h => by
    obtain ⟨σ, hσ⟩ := h bs (by simp)
    have hg1 := good_assign he (good_change (σ' := σ) (D' := D) hg fun v hv => ⟨hv, hσ.same v hv⟩) hσ.agrees
    have h1 := good_emit hg1 hσ.all
    obtain ⟨es, h2, h3⟩ := emitAll_spec he bss (assign slots bs) (good_change hg1 fun v hv => ⟨.inl hv, (hσ.same v hv).symm⟩) fun x hx => h x (by simp [hx])
    refine ⟨e.inst σ :: es, ?_, fun x => ?_⟩
    · rw [emitAll, h1]
      simp only []
      rw [h2]
      rfl
    · rw [List.mem_cons, h3]
      constructor
      · rintro (rfl | ⟨b, hb, r⟩)
        · exact ⟨bs, by simp, σ, hσ, rfl⟩
        · exact ⟨b, by simp [hb], r⟩
      · rintro ⟨b, hb, σ', hσ', rfl⟩
        rcases List.mem_cons.mp hb with rfl | hb
        · exact .inl (completed_unique hσ' hσ)
        · exact .inr ⟨b, hb, σ', hσ', rfl⟩

theorem agrees_bindings {e c : SymAtom P V O} (he : e.vars.Nodup) {σ τ : V → O} (h : ∀ v ∈ c.vars, v ∈ e.vars → τ v = σ v) : Agrees e σ (bindings (conv e c) (c.inst τ)) := by
  intro b hb
  obtain ⟨v, hv, h1, h2⟩ := (mem_bindings he).mp hb
  exact ⟨v, h1, h2.trans (h v hv (mem_vars'.mpr ⟨_, h1⟩))⟩

theorem bindings_var {e c : SymAtom P V O} (he : e.vars.Nodup) {τ : V → O} {v : V} (hv : v ∈ c.vars) (hv' : v ∈ e.vars) : ∃ b ∈ bindings (conv e c) (c.inst τ), e.args[b.1]? = some (.var v) := by
  obtain ⟨n, hn⟩ := mem_vars'.mp hv'
  exact ⟨(n, τ v), (mem_bindings he).mpr ⟨v, hv, hn, rfl⟩, hn⟩

theorem good_first {e c : SymAtom P V O} (he : e.vars.Nodup) (τ : V → O) : Good e τ (fun v => v ∈ c.vars ∧ v ∈ e.vars) (assign (e.args.map slot) (bindings (conv e c) (c.inst τ))) :=
  good_change (good_assign he (good_start e τ) (agrees_bindings he fun _ _ _ => rfl)) fun _ hv => ⟨.inr (bindings_var he hv.1 hv.2), rfl⟩

/-- the new atom for condition `j`, and atoms that were seen for the other conditions, support the effect with the values `σ` -/
def Supports (r : Datalog.Rule P V O) (idx : Index P O) (j : Nat) (a : GAtom P O) (σ : V → O) : Prop :=
  ∀ (j' : Nat) (c' : SymAtom P V O), r.conditions[j']? = some c' → ∃ τ : V → O, (∀ v ∈ c'.vars, v ∈ r.effect.vars → τ v = σ v) ∧
    ((j' = j ∧ c'.inst τ = a) ∨ (j' ≠ j ∧ ∃ l k, idx[j']? = some l ∧ (k, c'.inst τ) ∈ l))

/-- the atoms that were seen match their conditions and have the right keys -/
structure IdxOK (r : Datalog.Rule P V O) (idx : Index P O) : Prop where
  length : idx.length = r.conditions.length
  entries : ∀ (j : Nat) (c : SymAtom P V O) (l : List (List O × GAtom P O)), r.conditions[j]? = some c → idx[j]? = some l → ∀ x ∈ l, (∃ τ, c.inst τ = x.2) ∧ ruleKey (convert r) j x.2 = some x.1

theorem convert_conditions (r : Datalog.Rule P V O) : (convert r).conditions = r.conditions.map (conv r.effect) := rfl

theorem fire_project {r : Datalog.Rule P V O} (hr : r.Normal) (ht : r.type = .project) {idx : Index P O} {j : Nat} {c : SymAtom P V O} (hj : r.conditions[j]? = some c) (τ : V → O) :
    ∃ es, fire (convert r) idx j (c.inst τ) = some es ∧ ∀ x, x ∈ es ↔ ∃ σ, Supports r idx j (c.inst τ) σ ∧ x = r.effect.inst σ := by
  obtain ⟨c', hc'⟩ := hr.project ht
  have hjc : j = 0 ∧ c' = c := by
    rw [hc'] at hj
    cases j with
    | zero => exact ⟨rfl, by simpa using hj⟩
    | succ j => simp at hj
  obtain ⟨rfl, rfl⟩ := hjc
  have hbound : ∀ v ∈ r.effect.vars, v ∈ c'.vars := by
    intro v hv
    obtain ⟨d, hd, hvd⟩ := hr.bound v hv
    rw [hc', List.mem_singleton] at hd
    exact hd ▸ hvd
  have hcomp : ∀ σ, (∀ v ∈ c'.vars, v ∈ r.effect.vars → σ v = τ v) → Completed r.effect τ (fun v => v ∈ c'.vars ∧ v ∈ r.effect.vars) [] σ := fun σ hσ =>
    ⟨fun v hv => hσ v hv.1 hv.2, by intro b hb; simp at hb, fun v hv => .inl ⟨hbound v hv, hv⟩⟩
  obtain ⟨es, h1, h2⟩ := emitAll_spec hr.effect [[]] _ (good_first (c := c') hr.effect τ) (by
    intro bs hbs
    rw [List.mem_singleton.mp hbs]
    exact ⟨τ, hcomp τ fun _ _ _ => rfl⟩)
  refine ⟨es, ?_, fun x => ?_⟩
  · unfold fire
    rw [convert_conditions, List.getElem?_map, hj]
    simp only [Option.map_some]
    rw [show (convert r).type = .project from ht]
    exact h1
  · rw [h2]
    constructor
    · rintro ⟨bs, hbs, σ, hσ, rfl⟩
      refine ⟨σ, fun j' d hd => ?_, rfl⟩
      rw [hc'] at hd
      cases j' with
      | zero =>
        simp only [List.getElem?_cons_zero, Option.some.injEq] at hd
        subst hd
        exact ⟨τ, fun v hv hv' => (hσ.same v ⟨hv, hv'⟩).symm, .inl ⟨rfl, rfl⟩⟩
      | succ j' => simp at hd
    · rintro ⟨σ, hσ, rfl⟩
      obtain ⟨τ', h3, h4⟩ := hσ 0 c' hj
      rcases h4 with ⟨_, h4⟩ | ⟨h4, _⟩
      · refine ⟨[], by simp, σ, hcomp σ fun v hv hv' => ?_, rfl⟩
        rw [← h3 v hv hv', inst_inj h4 v hv]
      · exact absurd rfl h4

theorem mapAll_congr {β γ δ : Type} {f : β → Option γ} {g : δ → β} {h : δ → Option γ} {l : List δ} (hl : ∀ x ∈ l, f (g x) = h x) : Mas.mapAll f (l.map g) = Mas.mapAll h l := by
  induction l with
  | nil => rfl
  | cons x l ih =>
    rw [List.map_cons, Mas.mapAll, Mas.mapAll, hl x (by simp), ih fun y hy => hl y (by simp [hy])]

theorem mapAll_eq_iff {β γ : Type} {f g : β → Option γ} : ∀ {l : List β} {k k' : List γ}, Mas.mapAll f l = some k → Mas.mapAll g l = some k' → (k = k' ↔ ∀ x ∈ l, f x = g x) := by
  intro l k k' h1 h2
  rw [Mas.mapAll_iff] at h1 h2
  induction h1 generalizing k' with
  | nil =>
    cases h2
    simp
  | cons h3 _ ih =>
    cases h2 with
    | cons h5 h6 =>
      rw [List.cons.injEq, ih h6]
      simp only [List.mem_cons, forall_eq_or_imp, h3, h5, Option.some.injEq]

theorem mem_numbers {e c : SymAtom P V O} (he : e.vars.Nodup) {n : Nat} : n ∈ numbers (conv e c) ↔ ∃ v ∈ c.vars, e.args[n]? = some (.var v) := by
  unfold numbers conv
  simp only [List.mem_filterMap, List.mem_map]
  constructor
  · rintro ⟨x, ⟨t, ht, rfl⟩, h⟩
    split at h
    · rename_i m hm
      rw [Option.some.injEq] at h
      subst h
      obtain ⟨v, rfl, hv⟩ := (convertArg_pos he).mp hm
      exact ⟨v, mem_vars.mpr ht, hv⟩
    · cases h
  · rintro ⟨v, hv, h⟩
    exact ⟨_, ⟨.var v, mem_vars.mp hv, rfl⟩, by rw [(convertArg_pos he).mpr ⟨v, rfl, h⟩]⟩

/-- the key of an atom, from the values of the variables -/
theorem keyOf_inst {r : Datalog.Rule P V O} (hr : r.effect.vars.Nodup) {c d e : SymAtom P V O} (he : e = c ∨ e = d) (τ : V → O) :
    keyOf (keyPositions (convert r) (conv r.effect c) (conv r.effect d) (conv r.effect e)) (e.inst τ) =
      Mas.mapAll (fun (n : Nat) => (r.effect.args[n]?).map (·.value τ)) ((List.range (convert r).slots.length).filter (fun n => (numbers (conv r.effect c)).contains n && (numbers (conv r.effect d)).contains n)) := by
  unfold keyOf keyPositions
  refine mapAll_congr fun n hn => ?_
  have hn' := (List.mem_filter.mp hn).2
  rw [Bool.and_eq_true, List.contains_iff_mem, List.contains_iff_mem] at hn'
  have hne : n ∈ numbers (conv r.effect e) := by
    rcases he with rfl | rfl
    · exact hn'.1
    · exact hn'.2
  obtain ⟨v, hv, hnv⟩ := (mem_numbers hr).mp hne
  have hmem : Arg.pos n ∈ (conv r.effect e).args := List.mem_map.mpr ⟨_, mem_vars.mp hv, (convertArg_pos hr).mpr ⟨v, rfl, hnv⟩⟩
  have hlt := List.findIdx_lt_length_of_exists (p := fun x => x == (Arg.pos n : Arg V O)) ⟨_, hmem, by simp⟩
  have hget := List.findIdx_getElem (w := hlt)
  generalize hk : (conv r.effect e).args.findIdx (fun x => x == (Arg.pos n : Arg V O)) = k at hlt hget
  unfold conv at hlt hget
  simp only [List.length_map] at hlt
  simp only [List.getElem_map, beq_iff_eq] at hget
  obtain ⟨w, hw, hw'⟩ := (convertArg_pos hr).mp hget
  unfold SymAtom.inst
  simp only [List.getElem?_map]
  rw [List.getElem?_eq_getElem hlt, hw, hw']

theorem keyOf_defined {r : Datalog.Rule P V O} (hr : r.effect.vars.Nodup) {c d e : SymAtom P V O} (he : e = c ∨ e = d) (τ : V → O) :
    ∃ k, keyOf (keyPositions (convert r) (conv r.effect c) (conv r.effect d) (conv r.effect e)) (e.inst τ) = some k := by
  rw [keyOf_inst hr he]
  refine Mas.mapAll_defined fun n hn => ?_
  have hn' := (List.mem_filter.mp hn).1
  rw [List.mem_range] at hn'
  have : n < r.effect.args.length := by simpa [convert] using hn'
  rw [List.getElem?_eq_getElem this]
  exact ⟨_, rfl⟩

/-- atoms have equal keys iff they agree on the common variables of the effect -/
theorem keyOf_eq {r : Datalog.Rule P V O} (hr : r.effect.vars.Nodup) {c d : SymAtom P V O} {τ τ' : V → O} {k k' : List O}
    (h1 : keyOf (keyPositions (convert r) (conv r.effect c) (conv r.effect d) (conv r.effect c)) (c.inst τ) = some k)
    (h2 : keyOf (keyPositions (convert r) (conv r.effect c) (conv r.effect d) (conv r.effect d)) (d.inst τ') = some k') :
    k = k' ↔ ∀ v ∈ c.vars, v ∈ d.vars → v ∈ r.effect.vars → τ v = τ' v := by
  rw [keyOf_inst hr (.inl rfl)] at h1
  rw [keyOf_inst hr (.inr rfl)] at h2
  rw [mapAll_eq_iff h1 h2]
  constructor
  · intro h v hv hv' hve
    obtain ⟨n, hn⟩ := mem_vars'.mp hve
    have := h n (by
      rw [List.mem_filter, Bool.and_eq_true, List.contains_iff_mem, List.contains_iff_mem, mem_numbers hr, mem_numbers hr, List.mem_range]
      refine ⟨?_, ⟨v, hv, hn⟩, ⟨v, hv', hn⟩⟩
      have := (List.getElem?_eq_some_iff.mp hn).1
      simpa [convert] using this)
    rw [hn] at this
    simpa [Term.value] using this
  · intro h n hn
    rw [List.mem_filter, Bool.and_eq_true, List.contains_iff_mem, List.contains_iff_mem, mem_numbers hr, mem_numbers hr] at hn
    obtain ⟨_, ⟨v, hv, hnv⟩, ⟨w, hw, hnw⟩⟩ := hn
    rw [hnv, Option.some.injEq, Term.var.injEq] at hnw
    subst hnw
    rw [hnv]
    simp only [Option.map_some, Term.value, Option.some.injEq]
    exact h v hv hw (mem_vars'.mpr ⟨n, hnv⟩)

end
end Verif.BuildModel
