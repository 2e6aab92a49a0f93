import Verif.Lemmas.BuildLoop

/-
The assertions about rules hold for rules in normal form.
-/
namespace Verif.BuildModel
open Verif.Datalog
variable {P V O : Type} [DecidableEq P] [DecidableEq V] [DecidableEq O]

theorem convertArg_isVar {e : SymAtom P V O} (v : V) : (convertArg e (.var v)).isVar = true := by
  rw [convertArg]
  split <;> rfl

theorem mem_varSet {e c : SymAtom P V O} {x : Arg V O} : x ∈ varSet (conv e c) ↔ ∃ v ∈ c.vars, x = convertArg e (.var v) := by
  unfold varSet
  rw [List.mem_dedup, List.mem_filter]
  simp only [conv, List.mem_map]
  constructor
  · rintro ⟨⟨t, ht, rfl⟩, h⟩
    cases t with
    | const o => simp [convertArg, Arg.isVar] at h
    | var v => exact ⟨v, mem_vars.mpr ht, rfl⟩
  · rintro ⟨v, hv, rfl⟩
    exact ⟨⟨.var v, mem_vars.mp hv, rfl⟩, convertArg_isVar v⟩

theorem mem_effSet {r : Datalog.Rule P V O} (he : r.effect.vars.Nodup) {x : Arg V O} : x ∈ effSet (convert r) ↔ ∃ v ∈ r.effect.vars, x = convertArg r.effect (.var v) := by
  unfold effSet
  simp only [List.mem_map, List.mem_filter, Prod.exists]
  constructor
  · rintro ⟨s, n, ⟨h1, h2⟩, rfl⟩
    rw [List.mem_zipIdx_iff_getElem?] at h1
    simp only [convert, List.getElem?_map, Option.map_eq_some_iff] at h1
    obtain ⟨t, ht, rfl⟩ := h1
    cases t with
    | const o => simp [slot] at h2
    | var v => exact ⟨v, mem_vars'.mpr ⟨n, ht⟩, ((convertArg_pos he).mpr ⟨v, rfl, ht⟩).symm⟩
  · rintro ⟨v, hv, rfl⟩
    obtain ⟨n, hn⟩ := mem_vars'.mp hv
    refine ⟨none, n, ⟨?_, rfl⟩, ((convertArg_pos he).mpr ⟨v, rfl, hn⟩).symm⟩
    rw [List.mem_zipIdx_iff_getElem?]
    simp [convert, hn, slot]

theorem convertArg_inj {e : SymAtom P V O} (he : e.vars.Nodup) {v w : V} (h : convertArg e (.var v) = convertArg e (.var w)) : v = w := by
  cases hv : position e v with
  | some n =>
    have h1 : convertArg e (.var v) = .pos n := by rw [convertArg, hv]
    obtain ⟨u, hu, hn⟩ := (convertArg_pos he).mp (h ▸ h1)
    obtain ⟨u', hu', hn'⟩ := (convertArg_pos he).mp h1
    rw [Term.var.injEq] at hu hu'
    rw [hn, Option.some.injEq, Term.var.injEq] at hn'
    rw [hu', hu, hn']
  | none =>
    have h1 : convertArg e (.var v) = .free v := by rw [convertArg, hv]
    rw [h1] at h
    rw [convertArg] at h
    split at h
    · cases h
    · rw [Arg.free.injEq] at h
      exact h

theorem validate_normal {r : Datalog.Rule P V O} (hr : r.Normal) : validate (convert r) = true := by
  unfold validate
  rw [show (convert r).type = r.type from rfl, convert_conditions]
  have hin : ∀ {c : SymAtom P V O} {v : V}, convertArg r.effect (.var v) ∈ varSet (conv r.effect c) → v ∈ c.vars := by
    intro c v h
    obtain ⟨w, hw, he⟩ := mem_varSet.mp h
    rw [convertArg_inj hr.effect he]
    exact hw
  cases ht : r.type with
  | join =>
    obtain ⟨c, d, hcd, ⟨v, hv1, hv2⟩, h1, h2⟩ := hr.join ht
    rw [hcd]
    simp only [List.map_cons, List.map_nil, Bool.and_eq_true, List.any_eq_true, List.all_eq_true, List.contains_iff_mem, Bool.or_eq_true, List.mem_append]
    refine ⟨⟨⟨_, mem_varSet.mpr ⟨v, hv1, rfl⟩, mem_varSet.mpr ⟨v, hv2, rfl⟩⟩, ?_⟩, ?_⟩
    · rintro x (hx | hx)
      · obtain ⟨w, hw, rfl⟩ := mem_varSet.mp hx
        by_cases hwd : w ∈ d.vars
        · exact .inl ⟨hx, mem_varSet.mpr ⟨w, hwd, rfl⟩⟩
        · exact .inr ((mem_effSet hr.effect).mpr ⟨w, h1 w hw hwd, rfl⟩)
      · obtain ⟨w, hw, rfl⟩ := mem_varSet.mp hx
        by_cases hwc : w ∈ c.vars
        · exact .inl ⟨mem_varSet.mpr ⟨w, hwc, rfl⟩, hx⟩
        · exact .inr ((mem_effSet hr.effect).mpr ⟨w, h2 w hw hwc, rfl⟩)
    · intro x hx
      obtain ⟨w, hw, rfl⟩ := (mem_effSet hr.effect).mp hx
      obtain ⟨e, he, hwe⟩ := hr.bound w hw
      rw [hcd] at he
      simp only [List.mem_cons, List.not_mem_nil, or_false] at he
      rcases he with rfl | rfl
      · exact .inl (mem_varSet.mpr ⟨w, hwe, rfl⟩)
      · exact .inr (mem_varSet.mpr ⟨w, hwe, rfl⟩)
  | product =>
    obtain ⟨h1, h2, h3⟩ := hr.product ht
    simp only [Bool.and_eq_true, decide_eq_true_eq, List.length_map]
    have hnd : ((r.conditions.map (conv r.effect)).flatMap varSet).Nodup := by
      rw [List.nodup_flatMap]
      constructor
      · intro x _
        exact List.nodup_dedup _
      · rw [List.pairwise_map]
        refine h2.imp fun {c d} h => ?_
        intro x hx hx'
        obtain ⟨v, hv, rfl⟩ := mem_varSet.mp hx
        exact h v hv (hin hx')
    rw [List.dedup_eq_self.mpr hnd]
    refine ⟨⟨h1, ?_⟩, by rw [List.length_flatMap]⟩
    have heff : (effSet (convert r)).Nodup := by
      unfold effSet
      have h4 : ((convert r).slots.zipIdx.map (·.2)).Nodup := by
        rw [List.zipIdx_map_snd]
        exact List.nodup_range'
      have h5 : (((convert r).slots.zipIdx.filter (fun s => s.1.isNone)).map (·.2)).Nodup := (List.filter_sublist.map _).nodup h4
      have h6 := h5.map (f := fun n => (Arg.pos n : Arg V O)) (fun a b h => by simpa using h)
      rw [List.map_map] at h6
      exact h6
    refine ((List.perm_ext_iff_of_nodup hnd heff).mpr fun x => ?_).length_eq
    rw [mem_effSet hr.effect, List.mem_flatMap]
    constructor
    · rintro ⟨y, hy, hx⟩
      obtain ⟨c, hc, rfl⟩ := List.mem_map.mp hy
      obtain ⟨v, hv, rfl⟩ := mem_varSet.mp hx
      exact ⟨v, h3 c hc v hv, rfl⟩
    · rintro ⟨v, hv, rfl⟩
      obtain ⟨c, hc, hvc⟩ := hr.bound v hv
      exact ⟨_, List.mem_map_of_mem hc, mem_varSet.mpr ⟨v, hvc, rfl⟩⟩
  | project =>
    obtain ⟨c, hc⟩ := hr.project ht
    rw [hc]
    rfl

end Verif.BuildModel
