import Verif.Lemmas.AxiomNeeded
import Verif.Lemmas.FactGroups

/-
Lemmas about the layers of derived atoms.
-/
namespace Verif.AxiomRules
open Verif.Strips
variable {α : Type} [LinearOrder α] {t : StripsTask α}

theorem minLayers_fst : ∀ groups : List (List α), (minLayers t.axioms groups).map (·.1) = groups
  | [] => rfl
  | c :: cs => by rw [minLayers, List.map_cons, minLayers_fst cs]

theorem maxLayers_fst : ∀ groups : List (List α), (maxLayers groups).map (·.1) = groups
  | [] => rfl
  | c :: cs => by rw [maxLayers, List.map_cons, maxLayers_fst cs]

theorem foldl_max_bound {l : List Nat} {b : Nat} : l.foldl max 0 ≤ b ↔ ∀ x ∈ l, x ≤ b := by
  have : ∀ (l : List Nat) (a : Nat), l.foldl max a ≤ b ↔ a ≤ b ∧ ∀ x ∈ l, x ≤ b := by
    intro l
    induction l with
    | nil => simp
    | cons y l ih =>
      intro a
      rw [List.foldl_cons, ih]
      simp only [List.mem_cons, forall_eq_or_imp, Nat.max_le, and_assoc]
  rw [this]
  simp

theorem le_foldl_max {l : List Nat} {x : Nat} (h : x ∈ l) : x ≤ l.foldl max 0 := foldl_max_bound.mp (le_refl _) x h

theorem layerIn_eq {layers : List (List α × Nat)} (h : (layers.map (·.1)).flatten.Nodup) {c : List α} {n : Nat} (hc : (c, n) ∈ layers) {p : α} (hp : p ∈ c) : layerIn layers p = n := by
  unfold layerIn
  induction layers with
  | nil => simp at hc
  | cons d ds ih =>
    rw [List.map_cons, List.flatten_cons, List.nodup_append] at h
    obtain ⟨_, h2, h3⟩ := h
    rw [List.find?_cons]
    rcases List.mem_cons.mp hc with rfl | hc'
    · simp [hp]
    · have hpd : p ∉ d.1 := fun hpd => h3 p hpd p (List.mem_flatten.mpr ⟨c, List.mem_map.mpr ⟨_, hc', rfl⟩, hp⟩) rfl
      have : (d.1.contains p) = false := by simpa using hpd
      rw [this]
      exact ih h2 hc'

theorem negativeLoop_false {groups : List (List α)} (h : negativeLoop t.axioms groups = false) : ∀ c ∈ groups, ∀ p ∈ c, ∀ q ∈ dependencies t.axioms true p, q ∉ c := by
  intro c hc p hp q hq hqc
  unfold negativeLoop at h
  have := List.any_eq_false.mp h c hc
  simp only [List.any_eq_true, not_exists, not_and] at this
  exact this p hp q hq (by simpa using hqc)

theorem dep_of_dependencies {neg : Bool} {p q : α} (h : q ∈ dependencies t.axioms neg p) : t.DependsOn p q := by
  obtain ⟨r, hr, hh, l, hl, _, h1, h2⟩ := mem_dependencies.mp h
  exact ⟨r, hr, hh, l, hl, h1, h2⟩

/-- layers of clusters that respect dependencies -/
def Layered (t : StripsTask α) (layers : List (List α × Nat)) : Prop :=
  ∀ c ∈ layers, ∀ d ∈ layers, ∀ p ∈ c.1, ∀ q ∈ d.1, (q ∈ dependencies t.axioms false p → d.2 ≤ c.2) ∧ (q ∈ dependencies t.axioms true p → d.2 < c.2)

theorem layered_cons {layers : List (List α × Nat)} {c : List α} {n : Nat} (h : Layered t layers)
    (hnd : (((c, n) :: layers).map (·.1)).flatten.Nodup)
    (horder : ∀ d ∈ layers, ∀ p ∈ d.1, ∀ q ∈ c, ¬ t.DependsOn p q)
    (hneg : ∀ p ∈ c, ∀ q ∈ dependencies t.axioms true p, q ∉ c)
    (hn : ∀ d ∈ layers, ∀ p ∈ c, ∀ q ∈ d.1, (q ∈ dependencies t.axioms false p → d.2 ≤ n) ∧ (q ∈ dependencies t.axioms true p → d.2 < n)) : Layered t ((c, n) :: layers) := by
  intro c1 hc1 d1 hd1 p hp q hq
  rcases List.mem_cons.mp hc1 with rfl | hc1 <;> rcases List.mem_cons.mp hd1 with rfl | hd1
  · exact ⟨fun _ => le_refl _, fun h => absurd hq (hneg p hp q h)⟩
  · exact hn d1 hd1 p hp q hq
  · exact ⟨fun h => absurd (dep_of_dependencies h) (horder c1 hc1 p hp q hq), fun h => absurd (dep_of_dependencies h) (horder c1 hc1 p hp q hq)⟩
  · exact h c1 hc1 d1 hd1 p hp q hq

theorem minLayers_layered : ∀ {groups : List (List α)}, groups.flatten.Nodup → groups.Pairwise (fun c d => ∀ p ∈ d, ∀ q ∈ c, ¬ t.DependsOn p q) → (∀ c ∈ groups, ∀ p ∈ c, ∀ q ∈ dependencies t.axioms true p, q ∉ c) → Layered t (minLayers t.axioms groups)
  | [], _, _, _ => by intro c hc; simp [minLayers] at hc
  | c :: cs, h1, h2, h3 => by
    have hfst : ∀ d ∈ minLayers t.axioms cs, d.1 ∈ cs := fun d hd => by
      have := List.mem_map_of_mem (f := Prod.fst) hd
      rwa [minLayers_fst] at this
    rw [List.pairwise_cons] at h2
    have hnd : (((c, clusterLayer t.axioms c (minLayers t.axioms cs)) :: minLayers t.axioms cs).map (·.1)).flatten.Nodup := by
      rw [List.map_cons, minLayers_fst]
      exact h1
    have h1' := h1
    rw [List.flatten_cons, List.nodup_append] at h1'
    rw [minLayers]
    refine layered_cons (minLayers_layered h1'.2.1 h2.2 fun d hd => h3 d (by simp [hd])) hnd (fun d hd => h2.1 d.1 (hfst d hd)) (h3 c (by simp)) ?_
    intro d hd p hp q hq
    have hl : layerIn (minLayers t.axioms cs) q = d.2 := layerIn_eq (by rw [minLayers_fst]; exact h1'.2.1) (c := d.1) (n := d.2) hd hq
    have hqc : q ∉ c := fun hqc => h1'.2.2 q hqc q (List.mem_flatten.mpr ⟨d.1, hfst d hd, hq⟩) rfl
    constructor
    · intro hdep
      rw [← hl]
      refine le_foldl_max (List.mem_append_left _ (List.mem_map.mpr ⟨q, List.mem_filter.mpr ⟨List.mem_flatMap.mpr ⟨p, hp, hdep⟩, by simpa using hqc⟩, rfl⟩))
    · intro hdep
      rw [← hl]
      exact le_foldl_max (List.mem_append_right _ (List.mem_map.mpr ⟨q, List.mem_flatMap.mpr ⟨p, hp, hdep⟩, rfl⟩))

theorem maxLayers_lt {groups : List (List α)} : ∀ d ∈ maxLayers groups, d.2 < groups.length := by
  induction groups with
  | nil => intro d hd; simp [maxLayers] at hd
  | cons c cs ih =>
    intro d hd
    rw [maxLayers] at hd
    rcases List.mem_cons.mp hd with rfl | hd
    · simp
    · have := ih d hd
      simp only [List.length_cons]
      omega

theorem maxLayers_layered : ∀ {groups : List (List α)}, groups.flatten.Nodup → groups.Pairwise (fun c d => ∀ p ∈ d, ∀ q ∈ c, ¬ t.DependsOn p q) → (∀ c ∈ groups, ∀ p ∈ c, ∀ q ∈ dependencies t.axioms true p, q ∉ c) → Layered t (maxLayers groups)
  | [], _, _, _ => by intro c hc; simp [maxLayers] at hc
  | c :: cs, h1, h2, h3 => by
    have hfst : ∀ d ∈ maxLayers cs, d.1 ∈ cs := fun d hd => by
      have := List.mem_map_of_mem (f := Prod.fst) hd
      rwa [maxLayers_fst] at this
    rw [List.pairwise_cons] at h2
    have hnd : (((c, cs.length) :: maxLayers cs).map (·.1)).flatten.Nodup := by
      rw [List.map_cons, maxLayers_fst]
      exact h1
    have h1' := h1
    rw [List.flatten_cons, List.nodup_append] at h1'
    rw [maxLayers]
    refine layered_cons (maxLayers_layered h1'.2.1 h2.2 fun d hd => h3 d (by simp [hd])) hnd (fun d hd => h2.1 d.1 (hfst d hd)) (h3 c (by simp)) ?_
    intro d hd p _ q _
    have := maxLayers_lt d hd
    exact ⟨fun _ => by omega, fun _ => this⟩

/-- different clusters have different layers -/
theorem maxLayers_inj : ∀ {groups : List (List α)} {c d : List α × Nat}, c ∈ maxLayers groups → d ∈ maxLayers groups → c.2 = d.2 → c = d
  | [], _, _, hc, _, _ => by simp [maxLayers] at hc
  | e :: es, c, d, hc, hd, h => by
    rw [maxLayers] at hc hd
    rcases List.mem_cons.mp hc with rfl | hc <;> rcases List.mem_cons.mp hd with rfl | hd
    · rfl
    · have := maxLayers_lt d hd
      simp only at h
      omega
    · have := maxLayers_lt c hc
      simp only at h
      omega
    · exact maxLayers_inj hc hd h

theorem stratification_reach {layer : α → Nat} (h : t.Stratification t.Needed layer) {p q : α} (hp : t.Needed p) (hr : Relation.ReflTransGen t.DependsOn p q) : layer q ≤ layer p ∧ t.Needed q := by
  induction hr with
  | refl => exact ⟨le_refl _, hp⟩
  | tail _ hd ih =>
    have hd' := hd
    obtain ⟨r, hr, rfl, l, hl, rfl, hh⟩ := hd
    exact ⟨(h r hr ih.2 l hl hh).1.trans ih.1, needed_dep ih.2 (dep_iff.mp hd')⟩

theorem stratification_dep {layer : α → Nat} (h : t.Stratification t.Needed layer) {neg : Bool} {p q : α} (hp : t.Needed p) (hd : q ∈ dependencies t.axioms neg p) : layer q ≤ layer p ∧ (neg = true → layer q < layer p) := by
  obtain ⟨r, hr, rfl, l, hl, rfl, rfl, hh⟩ := mem_dependencies.mp hd
  exact h r hr hp l hl hh

/-- the layers of the strategy "min" are the least possible -/
theorem minLayers_le {layer : α → Nat} (h : t.Stratification t.Needed layer) : ∀ {groups : List (List α)}, groups.flatten.Nodup → (∀ c ∈ groups, ∀ p ∈ c, t.Needed p) → (∀ c ∈ groups, ∀ p ∈ c, ∀ q ∈ c, layer p = layer q) →
    ∀ d ∈ minLayers t.axioms groups, ∀ p ∈ d.1, d.2 ≤ layer p
  | [], _, _, _ => by intro c hc; simp [minLayers] at hc
  | c :: cs, h1, h2, h3 => by
    have h1' := h1
    rw [List.flatten_cons, List.nodup_append] at h1'
    have ih := minLayers_le h h1'.2.1 (fun d hd => h2 d (by simp [hd])) (fun d hd => h3 d (by simp [hd]))
    have hin : ∀ q, layerIn (minLayers t.axioms cs) q ≤ layer q := by
      intro q
      unfold layerIn
      split
      · omega
      · rename_i d hd
        have hm := List.mem_of_find?_eq_some hd
        have hq := List.find?_some hd
        exact ih d hm q (by simpa using hq)
    intro d hd p hp
    rw [minLayers] at hd
    rcases List.mem_cons.mp hd with rfl | hd
    · simp only at hp ⊢
      unfold clusterLayer
      rw [foldl_max_bound]
      intro x hx
      rcases List.mem_append.mp hx with hx | hx
      · obtain ⟨q, hq, rfl⟩ := List.mem_map.mp hx
        obtain ⟨p', hp', hq'⟩ := List.mem_flatMap.mp (List.mem_filter.mp hq).1
        have h4 := (stratification_dep h (h2 c (by simp) p' hp') hq').1
        have h5 := h3 c (by simp) p hp p' hp'
        have h6 := hin q
        omega
      · obtain ⟨q, hq, rfl⟩ := List.mem_map.mp hx
        obtain ⟨p', hp', hq'⟩ := List.mem_flatMap.mp hq
        have h4 := (stratification_dep h (h2 c (by simp) p' hp') hq').2 rfl
        have h5 := h3 c (by simp) p hp p' hp'
        have h6 := hin q
        omega
    · exact ih d hd p hp

theorem mem_flat {layers : List (List α × Nat)} {p : α} {n : Nat} : (p, n) ∈ layers.flatMap (fun c => c.1.map (fun p => (p, c.2))) ↔ ∃ c, (c, n) ∈ layers ∧ p ∈ c := by
  simp only [List.mem_flatMap, List.mem_map, Prod.mk.injEq]
  constructor
  · rintro ⟨c, hc, q, hq, rfl, rfl⟩
    exact ⟨c.1, hc, hq⟩
  · rintro ⟨c, hc, hp⟩
    exact ⟨(c, n), hc, p, hp, rfl, rfl⟩

theorem flat_fst (layers : List (List α × Nat)) : (layers.flatMap (fun c => c.1.map (fun p => (p, c.2)))).map (·.1) = (layers.map (·.1)).flatten := by
  induction layers with
  | nil => rfl
  | cons c cs ih => rw [List.flatMap_cons, List.map_append, ih, List.map_cons, List.flatten_cons]; simp [Function.comp_def]

theorem axiomLayers_fst (max : Bool) (groups : List (List α)) : (axiomLayers max t.axioms groups).map (·.1) = groups.flatten := by
  unfold axiomLayers
  rw [flat_fst]
  cases max
  · simp [minLayers_fst]
  · simp [maxLayers_fst]

end Verif.AxiomRules
