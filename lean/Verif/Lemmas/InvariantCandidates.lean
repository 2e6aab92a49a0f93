import Verif.Lemmas.InvariantReach
import Mathlib.Data.List.Perm.Subperm
import Mathlib.Data.List.Dedup

/-
All candidates for invariants are well-formed.
-/
namespace Verif.Invariants
open Verif.Datalog Verif.Lifted

variable {P V O T F : Type}

theorem foldl_set_length {α : Type} : ∀ (m : List (Nat × α)) (l : List α), (m.foldl (fun args x => args.set x.1 x.2) l).length = l.length
  | [], _ => rfl
  | x :: m, l => by rw [List.foldl_cons, foldl_set_length m, List.length_set]

theorem foldl_set_get {α : Type} : ∀ (m : List (Nat × α)) (l : List α), (m.map (·.1)).Nodup → (∀ x ∈ m, x.1 < l.length) → ∀ i v, (m.foldl (fun args x => args.set x.1 x.2) l)[i]? = some v ↔ (i, v) ∈ m ∨ (i ∉ m.map (·.1) ∧ l[i]? = some v)
  | [], l, _, _, i, v => by simp
  | x :: m, l, hn, hb, i, v => by
    rw [List.map_cons, List.nodup_cons] at hn
    rw [List.foldl_cons, foldl_set_get m _ hn.2 (fun y hy => by rw [List.length_set]; exact hb y (List.mem_cons_of_mem _ hy))]
    by_cases hi : i = x.1
    · subst hi
      have hlt := hb x List.mem_cons_self
      rw [List.getElem?_set_self hlt]
      constructor
      · rintro (h | ⟨_, h⟩)
        · exact absurd (List.mem_map.mpr ⟨_, h, rfl⟩) hn.1
        · exact .inl (List.mem_cons.mpr (.inl (by rw [← Option.some.inj h])))
      · rintro (h | ⟨h, _⟩)
        · rcases List.mem_cons.mp h with h | h
          · exact .inr ⟨hn.1, by rw [← h]⟩
          · exact absurd (List.mem_map.mpr ⟨_, h, rfl⟩) hn.1
        · exact absurd (by simp) h
    · rw [List.getElem?_set_ne (Ne.symm hi)]
      constructor
      · rintro (h | ⟨h1, h2⟩)
        · exact .inl (List.mem_cons_of_mem _ h)
        · exact .inr ⟨fun h => (List.mem_cons.mp h).elim hi h1, h2⟩
      · rintro (h | ⟨h1, h2⟩)
        · rcases List.mem_cons.mp h with h | h
          · exact absurd (congrArg Prod.fst h) hi
          · exact .inl h
        · exact .inr ⟨fun h => h1 (List.mem_cons_of_mem _ h), h2⟩

/-- when all positions are set once, the values are those of the mapping -/
theorem foldl_set_perm {α : Type} {m : List (Nat × α)} {l : List α} (h : (m.map (·.1)).Perm (List.range l.length)) : (m.foldl (fun args x => args.set x.1 x.2) l).Perm (m.map (·.2)) := by
  have hn : (m.map (·.1)).Nodup := h.nodup_iff.mpr List.nodup_range
  have hb : ∀ x ∈ m, x.1 < l.length := fun x hx => List.mem_range.mp (h.mem_iff.mp (List.mem_map.mpr ⟨x, hx, rfl⟩))
  have hz : ((m.foldl (fun args x => args.set x.1 x.2) l).zipIdx.map Prod.swap).Perm m := by
    refine (List.perm_ext_iff_of_nodup ?_ hn.of_map).mpr ?_
    · refine List.Nodup.map Prod.swap_injective ?_
      exact List.Nodup.of_map (f := Prod.snd) (by rw [List.zipIdx_map_snd]; exact List.nodup_range')
    · rintro ⟨i, v⟩
      rw [List.mem_map]
      constructor
      · rintro ⟨⟨v', i'⟩, h1, h2⟩
        injection h2 with h2 h3
        subst h2 h3
        have h4 := mem_zipIdx_get h1
        rcases (foldl_set_get m l hn hb _ _).mp h4 with h5 | ⟨h5, h6⟩
        · exact h5
        · exact absurd (h.mem_iff.mpr (List.mem_range.mpr (List.getElem?_eq_some_iff.mp h6).1)) h5
      · intro hm
        refine ⟨(v, i), ?_, rfl⟩
        rw [List.mem_zipIdx_iff_getElem?]
        exact (foldl_set_get m l hn hb i v).mpr (.inl hm)
  have h2 := hz.map Prod.snd
  rw [List.map_map] at h2
  have h3 : (Prod.snd ∘ Prod.swap : α × Nat → α) = Prod.fst := rfl
  rw [h3, List.zipIdx_map_fst] at h2
  exact h2

variable [DecidableEq P] [DecidableEq V] [DecidableEq O]

omit [DecidableEq P] in
theorem ownParams_some {part : IPart P} {own : List (Term V O)} {key : Term V O} {a : Option Nat} : a ∈ ownParams part own key ↔ ∃ k, a = some k ∧ (some k, key) ∈ part.args.zip own := by
  rw [ownParams, List.mem_filterMap]
  constructor
  · rintro ⟨⟨b, t⟩, h1, h2⟩
    split at h2
    · next h3 =>
      simp only [Bool.and_eq_true, beq_iff_eq] at h3
      obtain ⟨h3, rfl⟩ := h3
      obtain ⟨k, rfl⟩ := Option.isSome_iff_exists.mp h3
      exact ⟨k, (Option.some.inj h2).symm, h1⟩
    · cases h2
  · rintro ⟨k, rfl, h⟩
    exact ⟨_, h, by simp⟩

omit [DecidableEq P] in
theorem ownParams_length {part : IPart P} {own : List (Term V O)} {key : Term V O} : ((ownParams part own key).filterMap id).length = (ownParams part own key).length := by
  have : ∀ l : List (Option Nat), (∀ a ∈ l, ∃ k, a = some k) → (l.filterMap id).length = l.length := by
    intro l
    induction l with
    | nil => simp
    | cons a l ih =>
      intro h
      obtain ⟨k, rfl⟩ := h a List.mem_cons_self
      simpa using ih fun b hb => h b (List.mem_cons_of_mem _ hb)
  exact this _ fun a ha => by
    obtain ⟨k, hk, _⟩ := ownParams_some.mp ha
    exact ⟨k, hk⟩

omit [DecidableEq P] in
theorem ownParams_sublist {part : IPart P} {own : List (Term V O)} {key : Term V O} : ((ownParams part own key).filterMap id).Sublist (part.args.filterMap id) := by
  have h1 : ∀ (l : List (Option Nat)) (m : List (Term V O)), ((l.zip m).filterMap (fun x => if x.1.isSome && x.2 == key then some x.1 else none)).Sublist l := by
    intro l
    induction l with
    | nil => simp
    | cons a l ih =>
      intro m
      cases m with
      | nil => simp
      | cons b m =>
        rw [List.zip_cons_cons, List.filterMap_cons]
        split
        · exact (ih m).cons _
        · next h =>
          split at h
          · cases h
            exact (ih m).cons_cons _
          · cases h
  exact (h1 part.args own).filterMap id

omit [DecidableEq P] in
theorem factored_spec {part : IPart P} {own other : List (Term V O)} : ∀ {keys : List (Term V O)} {allowed : Nat} {pairs : List (List Nat × List (Option Nat))}, factored part own other allowed keys = some pairs → allowed ≤ 1 →
    pairs.map (·.1) = keys.map (positions other) ∧ (∀ x ∈ pairs, x.1.length = x.2.length) ∧ (pairs.flatMap (·.2)).filterMap id = (keys.flatMap (ownParams part own)).filterMap id ∧
      (keys.flatMap (positions other)).length ≤ ((keys.flatMap (ownParams part own)).filterMap id).length + allowed
  | [], allowed, pairs, h, _ => by
    rw [factored] at h
    cases h
    simp
  | key :: keys, allowed, pairs, h, ha => by
    rw [factored] at h
    split at h
    · next h1 =>
      obtain ⟨ps, h2, rfl⟩ := Option.map_eq_some_iff.mp h
      obtain ⟨k1, k2, k3, k4⟩ := factored_spec h2 ha
      refine ⟨by simp [k1], List.forall_mem_cons.mpr ⟨h1.symm, k2⟩, by simpa using k3, ?_⟩
      rw [List.flatMap_cons, List.flatMap_cons, List.filterMap_append, List.length_append, List.length_append, ownParams_length]
      omega
    · split at h
      · next h1 =>
        obtain ⟨ps, h2, rfl⟩ := Option.map_eq_some_iff.mp h
        obtain ⟨k1, k2, k3, k4⟩ := factored_spec h2 (Nat.zero_le 1)
        refine ⟨by simp [k1], List.forall_mem_cons.mpr ⟨by simpa using h1.1.symm, k2⟩, by simpa using k3, ?_⟩
        rw [List.flatMap_cons, List.flatMap_cons, List.filterMap_append, List.length_append, List.length_append, ownParams_length]
        omega
      · cases h

theorem product_pairs : ∀ {pairs : List (List Nat × List (Option Nat))}, (∀ x ∈ pairs, x.1.length = x.2.length) → ∀ {choice : List (List (Nat × Option Nat))}, List.Forall₂ (· ∈ ·) choice (pairs.map (fun x => x.2.permutations'.map (fun img => x.1.zip img))) →
    choice.flatten.map (·.1) = pairs.flatMap (·.1) ∧ (choice.flatten.map (·.2)).Perm (pairs.flatMap (·.2))
  | [], _, choice, h => by
    cases h
    simp
  | x :: pairs, hl, choice, h => by
    rw [List.map_cons] at h
    cases h with
    | @cons c _ cs _ h1 h2 =>
      obtain ⟨img, hi, rfl⟩ := List.mem_map.mp h1
      have hp := List.mem_permutations'.mp hi
      obtain ⟨k1, k2⟩ := product_pairs (fun y hy => hl y (List.mem_cons_of_mem _ hy)) h2
      have hlen : x.1.length = img.length := by rw [hl x List.mem_cons_self, hp.length_eq]
      rw [List.flatten_cons, List.map_append, List.map_append, List.flatMap_cons, List.flatMap_cons, k1]
      refine ⟨?_, ?_⟩
      · rw [List.map_fst_zip (le_of_eq hlen)]
      · rw [List.map_snd_zip (le_of_eq hlen.symm)]
        exact hp.append k2

theorem positions_perm {other : List (Term V O)} : (other.dedup.flatMap (positions other)).Perm (List.range other.length) := by
  refine (List.perm_ext_iff_of_nodup ?_ List.nodup_range).mpr fun i => ?_
  · rw [List.nodup_flatMap]
    refine ⟨fun key _ => List.nodup_range.filter _, (List.nodup_dedup other).imp ?_⟩
    intro a b hab i hia hib
    have h1 := (List.mem_filter.mp hia).2
    have h2 := (List.mem_filter.mp hib).2
    rw [beq_iff_eq] at h1 h2
    rw [h1] at h2
    exact hab (Option.some.inj h2)
  · rw [List.mem_flatMap, List.mem_range]
    constructor
    · rintro ⟨key, _, h⟩
      exact List.mem_range.mp (List.mem_filter.mp h).1
    · intro hi
      exact ⟨other[i], List.mem_dedup.mpr (List.getElem_mem hi), List.mem_filter.mpr ⟨List.mem_range.mpr hi, by simp [List.getElem?_eq_getElem hi]⟩⟩

theorem count_none (l : List (Option Nat)) : l.length = (l.filterMap id).length + l.count none := by
  induction l with
  | nil => rfl
  | cons a l ih =>
    cases a with
    | none => simp [ih]; omega
    | some k => simp [ih]; omega

omit [DecidableEq P] in
theorem possibleMatches_spec {part : IPart P} {own other : SymAtom P V O} (hn : (part.args.filterMap id).Nodup) {m : IPart P} (h : m ∈ possibleMatches part own other) :
    m.pred = other.pred ∧ m.args.length = other.args.length ∧ other.args.length ≤ partArity part + 1 ∧ (m.args.filterMap id).Perm (part.args.filterMap id) := by
  obtain ⟨mapping, hm, rfl⟩ := List.mem_map.mp h
  unfold possibleMappings at hm
  split at hm
  case isFalse => cases hm
  next hlen =>
  refine ⟨rfl, by simp [foldl_set_length], by omega, ?_⟩
  split at hm
  case h_1 => cases hm
  next pairs hp =>
  have hallowed : other.args.length - partArity part ≤ 1 := by omega
  obtain ⟨k1, k2, k3, k4⟩ := factored_spec hp hallowed
  obtain ⟨choice, hc, rfl⟩ := List.mem_map.mp hm
  obtain ⟨k5, k6⟩ := product_pairs k2 (mem_product.mp hc)
  have k7 : (choice.flatten.map (·.1)).Perm (List.range other.args.length) := by
    rw [k5]
    have : pairs.flatMap (·.1) = other.args.dedup.flatMap (positions other.args) := by rw [List.flatMap_def, k1, ← List.flatMap_def]
    rw [this]
    exact positions_perm
  have k8 : (choice.flatten.foldl (fun args x => args.set x.1 x.2) (List.replicate other.args.length (none : Option Nat))).Perm (choice.flatten.map (·.2)) := foldl_set_perm (by rw [List.length_replicate]; exact k7)
  have k9 := (k8.trans k6).filterMap id
  rw [k3] at k9
  refine k9.trans (List.Subperm.perm_of_length_le (List.subperm_of_subset ?_ ?_) ?_)
  · rw [List.filterMap_flatMap, List.nodup_flatMap]
    refine ⟨fun key _ => hn.sublist ownParams_sublist, (List.nodup_dedup _).imp ?_⟩
    intro a b hab k h1 h2
    simp only [List.mem_filterMap, id_eq, exists_eq_right] at h1 h2
    obtain ⟨_, e1, z1⟩ := ownParams_some.mp h1
    obtain ⟨_, e2, z2⟩ := ownParams_some.mp h2
    cases e1
    cases e2
    have f1 := find_zip hn z1
    rw [find_zip hn z2] at f1
    exact hab (Prod.mk.inj (Option.some.inj f1)).2.symm
  · intro k hk
    simp only [List.mem_filterMap, List.mem_flatMap, id_eq, exists_eq_right] at hk
    obtain ⟨key, _, hk⟩ := hk
    obtain ⟨_, e1, z1⟩ := ownParams_some.mp hk
    cases e1
    simpa using (List.of_mem_zip z1).1
  · rw [positions_perm.length_eq, List.length_range] at k4
    unfold partArity at hlen k4
    omega

/-- what is guaranteed of candidates -/
structure Candidate (L : LTask P V O T F) (ar : P → Nat) (inv : List (IPart P)) : Prop where
  wf : ∃ n, WellFormed ar n inv
  basic : L.BasicParts inv

section
variable {L : LTask P V O T F} {ar : P → Nat} {fnAr : F → Nat}

theorem refinements_candidate (hL : L.Ok ar fnAr) {A : LAction P V O T F} (hA : A ∈ L.actions) {inv : List (IPart P)} (h : Candidate L ar inv) {e : LEffect P V O T} {c : List (IPart P)} (hc : c ∈ refinements inv A e) : Candidate L ar c := by
  unfold refinements at hc
  split at hc
  · cases hc
  · next part hpart =>
    obtain ⟨d, hd, hc⟩ := List.mem_flatMap.mp hc
    obtain ⟨m, hm, rfl⟩ := List.mem_map.mp hc
    obtain ⟨hd1, hd2⟩ := List.mem_filter.mp hd
    simp only [Bool.and_eq_true, Bool.not_eq_true', relevant, List.contains_eq_mem, decide_eq_false_iff_not] at hd2
    obtain ⟨n, hw⟩ := h.wf
    have hp := List.mem_of_find?_eq_some hpart
    obtain ⟨k1, k2, k4, k3⟩ := possibleMatches_spec ((hw.args part hp).nodup_iff.mpr List.nodup_range) hm
    refine ⟨⟨n, ?_, ?_, ?_, ?_⟩, ?_⟩
    · rw [List.map_append, List.nodup_append]
      refine ⟨hw.preds, List.nodup_singleton _, ?_⟩
      intro a ha b hb hab
      simp only [List.map_cons, List.map_nil, List.mem_singleton] at hb
      subst hab
      rw [hb, k1] at ha
      exact hd2.2 ha
    · intro q hq
      rcases List.mem_append.mp hq with hq | hq
      · exact hw.length q hq
      · rw [List.mem_singleton] at hq
        subst hq
        rw [k2, k1]
        exact (hL.effectArity A hA d hd1).2
    · intro q hq
      rcases List.mem_append.mp hq with hq | hq
      · exact hw.args q hq
      · rw [List.mem_singleton] at hq
        subst hq
        exact k3.trans (hw.args part hp)
    · intro q hq
      rcases List.mem_append.mp hq with hq | hq
      · exact hw.once q hq
      · rw [List.mem_singleton] at hq
        subst hq
        have h5 := count_none q.args
        have h6 := k3.length_eq
        unfold partArity at k4
        omega
    · intro q hq
      rcases List.mem_append.mp hq with hq | hq
      · exact h.basic q hq
      · rw [List.mem_singleton] at hq
        subst hq
        rw [k1]
        exact hL.derivedEffect A hA d hd1

theorem refineAt_candidate (hL : L.Ok ar fnAr) {A : LAction P V O T F} (hA : A ∈ L.actions) {inv : List (IPart P)} (h : Candidate L ar inv) {pre : List (Lit P V O)} {c : List (IPart P)} : ∀ {es : List (LEffect P V O T)}, c ∈ refineAt inv pre A es → Candidate L ar c
  | [], hc => by cases hc
  | e :: es, hc => by
    rw [refineAt] at hc
    split at hc
    · exact refinements_candidate hL hA h hc
    · exact refineAt_candidate hL hA h hc
    · cases hc

theorem newCandidates_candidate (hL : L.Ok ar fnAr) {inv : List (IPart P)} (h : Candidate L ar inv) {c : List (IPart P)} : ∀ {acts : List (LAction P V O T F × Option (List (List O)))}, (∀ x ∈ acts, x.1 ∈ L.actions) → c ∈ newCandidates L.eq inv acts → Candidate L ar c
  | [], _, hc => by cases hc
  | (A, reach) :: rest, ha, hc => by
    rw [newCandidates] at hc
    have ih := newCandidates_candidate hL h (c := c) (acts := rest) fun x hx => ha x (List.mem_cons_of_mem _ hx)
    split at hc
    · split at hc
      · cases hc
      · split at hc
        · exact ih hc
        · exact refineAt_candidate hL (ha _ List.mem_cons_self) h hc
    · exact ih hc

omit [DecidableEq V] [DecidableEq O] in
theorem initial_candidate (hL : L.Ok ar fnAr) {preds : List (P × Nat)} (hp : ∀ x ∈ preds, x.2 = ar x.1) {c : List (IPart P)} (hc : c ∈ initialInvariants preds L.actions) : Candidate L ar c := by
  obtain ⟨x, hx, hc⟩ := List.mem_flatMap.mp hc
  obtain ⟨hx, he⟩ := List.mem_filter.mp hx
  have hb : ∀ y ∈ L.axioms, y.pred ≠ x.1 := by
    obtain ⟨A, hA, he⟩ := List.any_eq_true.mp he
    obtain ⟨e, he, he'⟩ := List.any_eq_true.mp he
    rw [decide_eq_true_eq] at he'
    exact fun y hy => he' ▸ hL.derivedEffect A hA e he y hy
  have key : ∀ (args : List (Option Nat)) (n : Nat), args.length = x.2 → (args.filterMap id).Perm (List.range n) → x.2 ≤ n + 1 → Candidate L ar [⟨x.1, args⟩] := by
    intro args n h1 h2 h3
    refine ⟨⟨n, by simp, ?_, ?_, ?_⟩, ?_⟩
    · intro q hq
      rw [List.mem_singleton] at hq
      subst hq
      exact h1.trans (hp x hx)
    · intro q hq
      rw [List.mem_singleton] at hq
      subst hq
      exact h2
    · intro q hq
      rw [List.mem_singleton] at hq
      subst hq
      have h5 := count_none args
      have h6 := h2.length_eq
      rw [List.length_range] at h6
      show args.count none ≤ 1
      omega
    · intro q hq
      rw [List.mem_singleton] at hq
      subst hq
      exact hb
  rcases List.mem_cons.mp hc with rfl | hc
  · refine key _ x.2 (by simp) ?_ (by omega)
    rw [List.filterMap_map]
    simp
  · obtain ⟨j, hj, rfl⟩ := List.mem_map.mp hc
    rw [List.mem_range] at hj
    refine key _ (x.2 - 1) (by simp; omega) ?_ (by omega)
    have h1 : ((List.range j).map some ++ none :: (List.range' j (x.2 - 1 - j)).map some).filterMap id = List.range j ++ List.range' j (x.2 - 1 - j) := by
      rw [List.filterMap_append, List.filterMap_cons, List.filterMap_map, List.filterMap_map]
      simp
    rw [h1, List.range_eq_range', List.range_eq_range']
    have h2 := List.range'_append_1 (s := 0) (m := j) (n := x.2 - 1 - j)
    rw [Nat.zero_add] at h2
    rw [h2, show j + (x.2 - 1 - j) = x.2 - 1 by omega]

omit [DecidableEq V] [DecidableEq O] in
theorem enqueue_mem {limit : Nat} {c : List (IPart P)} : ∀ {cs queue seen : List (List (IPart P))}, c ∈ (enqueue limit queue seen cs).1 → c ∈ queue ∨ c ∈ cs
  | [], _, _, h => .inl h
  | d :: cs, queue, seen, h => by
    rw [enqueue] at h
    split at h
    · rcases enqueue_mem h with h | h
      · rcases List.mem_append.mp h with h | h
        · exact .inl h
        · rw [List.mem_singleton] at h
          exact .inr (h ▸ List.mem_cons_self)
      · exact .inr (List.mem_cons_of_mem _ h)
    · exact (enqueue_mem h).imp id (List.mem_cons_of_mem _)

/-- the loop is defined, and all results are candidates that are balanced in one of the orders -/
theorem findLoop_spec (hL : L.Ok ar fnAr) {limit : Nat} : ∀ {orders : List (List (LAction P V O T F × Option (List (List O))))} {queue seen : List (List (IPart P))}, (∀ acts ∈ orders, ∀ x ∈ acts, x.1 ∈ L.actions) → (∀ c ∈ queue, Candidate L ar c) →
    ∃ invs, findLoop L.eq limit orders queue seen = some invs ∧ ∀ c ∈ invs, Candidate L ar c ∧ ∃ acts ∈ orders, checkBalance L.eq c acts = some true
  | [], queue, seen, _, _ => ⟨[], by rw [findLoop], by simp⟩
  | acts :: orders, [], seen, _, _ => ⟨[], by rw [findLoop], by simp⟩
  | acts :: orders, c :: queue, seen, ho, hq => by
    have ho' : ∀ acts ∈ orders, ∀ x ∈ acts, x.1 ∈ L.actions := fun a ha => ho a (List.mem_cons_of_mem _ ha)
    have hc := hq c List.mem_cons_self
    obtain ⟨n, hw⟩ := hc.wf
    obtain ⟨b, hb⟩ := checkBalance_defined hw (eq := L.eq) acts
    rw [findLoop, hb]
    cases b with
    | true =>
      obtain ⟨invs, h1, h2⟩ := findLoop_spec hL (limit := limit) (seen := seen) ho' fun d hd => hq d (List.mem_cons_of_mem _ hd)
      refine ⟨c :: invs, by simp [h1], List.forall_mem_cons.mpr ⟨⟨hc, acts, List.mem_cons_self, hb⟩, fun d hd => ?_⟩⟩
      obtain ⟨h3, a, h4, h5⟩ := h2 d hd
      exact ⟨h3, a, List.mem_cons_of_mem _ h4, h5⟩
    | false =>
      obtain ⟨invs, h1, h2⟩ := findLoop_spec hL (limit := limit) (queue := (enqueue limit queue seen (newCandidates L.eq c acts)).1) (seen := (enqueue limit queue seen (newCandidates L.eq c acts)).2) ho' fun d hd => by
        rcases enqueue_mem hd with hd | hd
        · exact hq d (List.mem_cons_of_mem _ hd)
        · exact newCandidates_candidate hL hc (ho acts List.mem_cons_self) hd
      refine ⟨invs, h1, fun d hd => ?_⟩
      obtain ⟨h3, a, h4, h5⟩ := h2 d hd
      exact ⟨h3, a, List.mem_cons_of_mem _ h4, h5⟩
end

end Verif.Invariants
