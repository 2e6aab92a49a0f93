import Verif.Lemmas.MasAbstract
import Verif.Model.MasFts

/-
Merge-and-shrink representations: well-formed tables and the values of states.
-/
namespace Verif.Mas

/-- exactly the numbers less than `d` occur -/
def Onto (d : Nat) (es : List (Option Nat)) : Prop := ∀ e : Nat, some e ∈ es ↔ e < d

/-- the tables have the dimensions of the domains -/
def ReprOk (t : Task) : Repr → Prop
  | .leaf d v table => (∃ vd : Variable, t.vars[v]? = some vd ∧ table.length = vd.domain) ∧ Onto d table
  | .merge d l r table => (ReprOk t l ∧ ReprOk t r) ∧ (table.length = l.domain ∧ ∀ row ∈ table, row.length = r.domain) ∧ Onto d table.flatten

theorem ReprOk.value {t : Task} : ∀ {r : Repr}, ReprOk t r → ∀ {s : State}, t.ValidState s → ∃ o, r.value s = some o ∧ ∀ a, o = some a → a < r.domain
  | .leaf d v table, h, s, hs => by
    obtain ⟨⟨vd, h1, h2⟩, h3⟩ := h
    have hv : v < s.length := by rw [hs.1]; exact (List.getElem?_eq_some_iff.mp h1).1
    have e : s[v]? = some s[v] := List.getElem?_eq_getElem hv
    have hx := hs.2 v _ vd e h1
    have hx' : s[v] < table.length := by omega
    refine ⟨table[s[v]], by simp only [Repr.value, e]; exact List.getElem?_eq_getElem hx', fun a ha => ?_⟩
    exact (h3 a).mp (by rw [← ha]; exact List.getElem_mem hx')
  | .merge d l r table, h, s, hs => by
    obtain ⟨⟨h1, h2⟩, ⟨h3, h4⟩, h5⟩ := h
    obtain ⟨o1, e1, k1⟩ := ReprOk.value h1 hs
    obtain ⟨o2, e2, k2⟩ := ReprOk.value h2 hs
    cases o1 with
    | none => exact ⟨none, by simp only [Repr.value, e1, e2], by simp⟩
    | some a =>
      cases o2 with
      | none => exact ⟨none, by simp only [Repr.value, e1, e2], by simp⟩
      | some b =>
        have ha : a < table.length := by rw [h3]; exact k1 a rfl
        have hb : b < table[a].length := by rw [h4 _ (List.getElem_mem ha)]; exact k2 b rfl
        refine ⟨table[a][b], by simp only [Repr.value, e1, e2, List.getElem?_eq_getElem ha, List.getElem?_eq_getElem hb], fun c hc => ?_⟩
        exact (h5 c).mp (by rw [← hc]; exact List.mem_flatten.mpr ⟨_, List.getElem_mem ha, List.getElem_mem hb⟩)

theorem foldl_max_ge : ∀ (es : List (Option Nat)) (d : Nat), d ≤ es.foldl (fun d e => max d (match e with | none => 0 | some e => e + 1)) d
  | [], _ => Nat.le_refl _
  | e :: es, d => by
    rw [List.foldl_cons]
    exact Nat.le_trans (Nat.le_max_left _ _) (foldl_max_ge es _)

theorem newDomain_spec : ∀ (es : List (Option Nat)) (d n : Nat), es.foldl (fun d e => max d (match e with | none => 0 | some e => e + 1)) d ≤ n ↔ d ≤ n ∧ ∀ e : Nat, some e ∈ es → e < n
  | [], d, n => by simp
  | e :: es, d, n => by
    rw [List.foldl_cons, newDomain_spec es]
    cases e with
    | none => simp
    | some e =>
      simp only [Nat.max_le]
      constructor
      · rintro ⟨h1, h2⟩
        refine ⟨by omega, fun x hx => ?_⟩
        rcases List.mem_cons.mp hx with e' | h
        · simp only [Option.some.injEq] at e'; omega
        · exact h2 x h
      · rintro ⟨h1, h2⟩
        have := h2 e (by simp)
        exact ⟨⟨h1, this⟩, fun x hx => h2 x (by simp [hx])⟩

/-- the new domain size is right -/
theorem newDomain_eq {es : List (Option Nat)} {n : Nat} (h : Onto n es) : newDomain es = n := by
  apply Nat.le_antisymm
  · exact (newDomain_spec es 0 n).mpr ⟨by omega, fun e he => (h e).mp he⟩
  · have := ((newDomain_spec es 0 (newDomain es)).mp (Nat.le_refl _)).2
    by_contra hc
    have h1 := this (newDomain es) ((h _).mpr (by omega))
    omega

theorem mapTable_mem {α : Type} {m : List α} {f : α → Option Nat} {t t' : List (Option Nat)} (h : mapTable m f t = some t') {x : Nat} : some x ∈ t' ↔ ∃ e : Nat, some e ∈ t ∧ ∃ y, m[e]? = some y ∧ f y = some x := by
  constructor
  · intro hx
    obtain ⟨o, h1, h2⟩ := mapAll_mem h hx
    cases o with
    | none => simp [mapEntry] at h2
    | some e =>
      simp only [mapEntry, Option.map_eq_some_iff] at h2
      exact ⟨e, h1, h2⟩
  · rintro ⟨e, h1, y, h2, h3⟩
    obtain ⟨b, h4, h5⟩ := mapAll_mem' h h1
    simp only [mapEntry, h2, Option.map_some, Option.some.injEq] at h5
    rw [← h3, h5]; exact h4

theorem mapTables_mem {α : Type} {m : List α} {f : α → Option Nat} {t t' : List (List (Option Nat))} (h : mapAll (mapTable m f) t = some t') {x : Nat} :
    some x ∈ t'.flatten ↔ ∃ e : Nat, some e ∈ t.flatten ∧ ∃ y, m[e]? = some y ∧ f y = some x := by
  simp only [List.mem_flatten]
  constructor
  · rintro ⟨row, h1, h2⟩
    obtain ⟨row0, h3, h4⟩ := mapAll_mem h h1
    obtain ⟨e, h5, h6⟩ := (mapTable_mem h4).mp h2
    exact ⟨e, ⟨row0, h3, h5⟩, h6⟩
  · rintro ⟨e, ⟨row0, h3, h5⟩, h6⟩
    obtain ⟨row, h1, h2⟩ := mapAll_mem' h h3
    exact ⟨row, h1, (mapTable_mem h2).mpr ⟨e, h5, h6⟩⟩

/-- the values of a table after a mapping -/
theorem mapTable_get {α : Type} {m : List α} {f : α → Option Nat} {t t' : List (Option Nat)} (h : mapTable m f t = some t') {i : Nat} {o : Option Nat} (ho : t[i]? = some o) : ∃ o', t'[i]? = some o' ∧ mapEntry m f o = some o' :=
  mapAll_getElem? h ho

/-- the numbers of the classes, if no class is empty -/
theorem onto_map {n : Nat} {rel : List (List Nat)} {m : List (Option Nat)} (hm : MapOf n rel m) (hne : ∀ c ∈ rel, c ≠ []) {x : Nat} : (∃ e : Nat, e < n ∧ ∃ y, m[e]? = some y ∧ id y = some x) ↔ x < rel.length := by
  constructor
  · rintro ⟨e, _, y, h1, rfl⟩
    obtain ⟨c, h2, _⟩ := (hm.2 e x).mp h1
    exact (List.getElem?_eq_some_iff.mp h2).1
  · intro hx
    have h1 : rel[x]? = some rel[x] := List.getElem?_eq_getElem hx
    obtain ⟨s, hs⟩ := List.exists_mem_of_ne_nil _ (hne _ (List.mem_of_getElem? h1))
    have h2 := (hm.2 s x).mpr ⟨_, h1, hs⟩
    refine ⟨s, by rw [← hm.1]; exact (List.getElem?_eq_some_iff.mp h2).1, _, h2, rfl⟩

/-- applying an abstraction maps the values -/
theorem applyAbstraction_repr {t : Task} {r r' : Repr} {rel : List (List Nat)} {m : List (Option Nat)} (hr : ReprOk t r) (hm : MapOf r.domain rel m) (hne : ∀ c ∈ rel, c ≠ []) (h : r.applyAbstraction m = some r') :
    ReprOk t r' ∧ r'.domain = rel.length ∧ ∀ s o, r.value s = some o → ∃ o', r'.value s = some o' ∧ mapEntry m id o = some o' := by
  cases r with
  | leaf d v table =>
    simp only [Repr.applyAbstraction] at h
    cases ht : mapTable m id table with
    | none => rw [ht] at h; simp at h
    | some table' =>
      rw [ht] at h
      simp only [Option.some.injEq] at h
      subst h
      obtain ⟨⟨vd, h1, h2⟩, h3⟩ := hr
      have honto : Onto rel.length table' := by
        intro e
        rw [mapTable_mem ht, ← onto_map hm hne]
        simp only [h3 _]
        rfl
      refine ⟨⟨⟨vd, h1, (mapAll_length ht).trans h2⟩, by rw [newDomain_eq honto]; exact honto⟩, newDomain_eq honto, ?_⟩
      intro s o ho
      simp only [Repr.value] at ho ⊢
      cases hx : s[v]? with
      | none => rw [hx] at ho; simp at ho
      | some x =>
        rw [hx] at ho
        exact mapTable_get ht ho
  | merge d l r table =>
    simp only [Repr.applyAbstraction] at h
    cases ht : mapAll (mapTable m id) table with
    | none => rw [ht] at h; simp at h
    | some table' =>
      rw [ht] at h
      simp only [Option.some.injEq] at h
      subst h
      obtain ⟨h12, ⟨h3, h4⟩, h5⟩ := hr
      have honto : Onto rel.length table'.flatten := by
        intro e
        rw [mapTables_mem ht, ← onto_map hm hne]
        simp only [h5 _]
        rfl
      refine ⟨⟨h12, ⟨(mapAll_length ht).trans h3, fun row hrow => ?_⟩, by rw [newDomain_eq honto]; exact honto⟩, newDomain_eq honto, ?_⟩
      · obtain ⟨row0, h6, h7⟩ := mapAll_mem ht hrow
        exact (mapAll_length h7).trans (h4 row0 h6)
      · intro s o ho
        simp only [Repr.value] at ho ⊢
        cases hl : l.value s with
        | none => rw [hl] at ho; simp at ho
        | some a =>
          cases hrv : r.value s with
          | none => rw [hl, hrv] at ho; cases a <;> simp at ho
          | some b =>
            rw [hl, hrv] at ho
            cases a with
            | none => cases b <;> (simp only [Option.some.injEq] at ho; subst ho; exact ⟨none, rfl, rfl⟩)
            | some a =>
              cases b with
              | none => simp only [Option.some.injEq] at ho; subst ho; exact ⟨none, rfl, rfl⟩
              | some b =>
                simp only at ho ⊢
                cases hrow : table[a]? with
                | none => rw [hrow] at ho; simp at ho
                | some row =>
                  rw [hrow] at ho
                  obtain ⟨row', h6, h7⟩ := mapAll_getElem? ht hrow
                  rw [h6]
                  exact mapTable_get h7 ho

/-- with distances instead of abstract states -/
theorem setDistances_repr {r r' : Repr} {ds : List Nat} (h : r.setDistances ds = some r') {s : State} {o : Option Nat} (ho : r.value s = some o) : ∃ o', r'.value s = some o' ∧ mapEntry ds some o = some o' := by
  cases r with
  | leaf d v table =>
    simp only [Repr.setDistances] at h
    cases ht : mapTable ds some table with
    | none => rw [ht] at h; simp at h
    | some table' =>
      rw [ht] at h
      simp only [Option.some.injEq] at h
      subst h
      simp only [Repr.value] at ho ⊢
      cases hx : s[v]? with
      | none => rw [hx] at ho; simp at ho
      | some x =>
        rw [hx] at ho
        exact mapTable_get ht ho
  | merge d l r table =>
    simp only [Repr.setDistances] at h
    cases ht : mapAll (mapTable ds some) table with
    | none => rw [ht] at h; simp at h
    | some table' =>
      rw [ht] at h
      simp only [Option.some.injEq] at h
      subst h
      simp only [Repr.value] at ho ⊢
      cases hl : l.value s with
      | none => rw [hl] at ho; simp at ho
      | some a =>
        cases hrv : r.value s with
        | none => rw [hl, hrv] at ho; cases a <;> simp at ho
        | some b =>
          rw [hl, hrv] at ho
          cases a with
          | none => cases b <;> (simp only [Option.some.injEq] at ho; subst ho; exact ⟨none, rfl, rfl⟩)
          | some a =>
            cases b with
            | none => simp only [Option.some.injEq] at ho; subst ho; exact ⟨none, rfl, rfl⟩
            | some b =>
              simp only at ho ⊢
              cases hrow : table[a]? with
              | none => rw [hrow] at ho; simp at ho
              | some row =>
                rw [hrow] at ho
                obtain ⟨row', h6, h7⟩ := mapAll_getElem? ht hrow
                rw [h6]
                exact mapTable_get h7 ho

/-- a new representation of a variable -/
theorem newLeaf_ok {t : Task} {v : Nat} {d : Variable} (hd : t.vars[v]? = some d) : ReprOk t (.newLeaf v d.domain) ∧ ∀ s : State, ∀ x : Nat, s[v]? = some x → x < d.domain → (Repr.newLeaf v d.domain).value s = some (some x) := by
  refine ⟨⟨⟨d, hd, by simp⟩, fun e => by simp⟩, fun s x hx hlt => ?_⟩
  simp [Repr.newLeaf, Repr.value, hx, hlt]

/-- the representation of a product -/
theorem newMerge_ok {t : Task} {l r : Repr} (hl : ReprOk t l) (hr : ReprOk t r) : ReprOk t (l.newMerge r) ∧ (l.newMerge r).domain = l.domain * r.domain ∧
    ∀ s, t.ValidState s → ∀ o1 o2, l.value s = some o1 → r.value s = some o2 →
      (l.newMerge r).value s = some (match o1, o2 with | some a, some b => some (a * r.domain + b) | _, _ => none) := by
  refine ⟨⟨⟨hl, hr⟩, ⟨by simp, fun row hrow => ?_⟩, fun e => ?_⟩, rfl, fun s hs o1 o2 h1 h2 => ?_⟩
  · simp only [List.mem_map, List.mem_range] at hrow
    obtain ⟨i, _, rfl⟩ := hrow
    simp
  · simp only [List.mem_flatten, List.mem_map, List.mem_range]
    constructor
    · rintro ⟨row, ⟨i, hi, rfl⟩, h⟩
      simp only [List.mem_map, List.mem_range, Option.some.injEq] at h
      obtain ⟨j, hj, rfl⟩ := h
      calc i * r.domain + j < i * r.domain + r.domain := by omega
        _ = (i + 1) * r.domain := (Nat.succ_mul _ _).symm
        _ ≤ l.domain * r.domain := Nat.mul_le_mul_right _ hi
    · intro he
      have hpos : 0 < r.domain := by
        rcases Nat.eq_zero_or_pos r.domain with h | h
        · rw [h] at he; simp at he
        · exact h
      refine ⟨_, ⟨e / r.domain, (Nat.div_lt_iff_lt_mul hpos).mpr he, rfl⟩, ?_⟩
      simp only [List.mem_map, List.mem_range, Option.some.injEq]
      exact ⟨e % r.domain, Nat.mod_lt _ hpos, by rw [Nat.mul_comm]; exact Nat.div_add_mod _ _⟩
  · obtain ⟨o1', e1, k1⟩ := hl.value hs
    obtain ⟨o2', e2, k2⟩ := hr.value hs
    rw [h1] at e1; rw [h2] at e2
    simp only [Option.some.injEq] at e1 e2
    subst e1 e2
    cases o1 with
    | none => simp only [Repr.newMerge, Repr.value, h1, h2]
    | some a =>
      cases o2 with
      | none => simp only [Repr.newMerge, Repr.value, h1, h2]
      | some b =>
        have ha := k1 a rfl
        have hb := k2 b rfl
        simp [Repr.newMerge, Repr.value, h1, h2, ha, hb]

end Verif.Mas
