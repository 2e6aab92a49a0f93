import Verif.Spec.LandmarkGraph
import Verif.Lemmas.TaskWorld

/- Runs, and the passes over the bit sets of landmarks. -/
namespace Verif.Landmarks

section runs
variable {t : Task}

theorem _root_.Verif.Task.Run.append {s s' u : State} {r r' : List (Nat × State)} (h : t.Run s r s') (h' : t.Run s' r' u) : t.Run s (r ++ r') u := by
  induction h with
  | nil s => exact h'
  | cons s i s1 r s2 h1 _ ih => exact .cons _ _ _ _ _ h1 (ih h')

theorem run_valid (hwf : t.WF) {s u : State} {r : List (Nat × State)} (hs : t.ValidState s) (h : t.Run s r u) :
    t.ValidState u ∧ ∀ x ∈ runStates s r, t.ValidState x := by
  induction h with
  | nil s => exact ⟨hs, by simp [runStates, hs]⟩
  | cons s i s1 r u h1 _ ih =>
    obtain ⟨o, g1, g2, g3⟩ := h1
    have : t.ValidState s1 := Search.exec_valid hwf hs (.cons s i o s1 [] s1 g1 g2 g3 (.nil s1))
    obtain ⟨k1, k2⟩ := ih this
    refine ⟨k1, ?_⟩
    intro x hx
    simp only [runStates, List.map_cons, List.mem_cons] at hx k2
    rcases hx with rfl | hx
    · exact hs
    · exact k2 x hx

theorem run_exec {s u : State} {r : List (Nat × State)} (h : t.Run s r u) : t.Exec s (r.map (·.1)) u := by
  induction h with
  | nil s => exact .nil s
  | cons s i s1 r u h1 _ ih =>
    obtain ⟨o, g1, g2, g3⟩ := h1
    exact .cons s i o s1 _ u g1 g2 g3 ih

theorem exec_run {s u : State} {π : List Nat} (h : t.Exec s π u) : ∃ r, t.Run s r u ∧ r.map (·.1) = π := by
  induction h with
  | nil s => exact ⟨[], .nil s, rfl⟩
  | cons s i o s1 π u h1 h2 h3 _ ih =>
    obtain ⟨r, g1, g2⟩ := ih
    exact ⟨(i, s1) :: r, .cons _ _ _ _ _ ⟨o, h1, h2, h3⟩ g1, by simp [g2]⟩

theorem run_last {s u : State} {r : List (Nat × State)} (h : t.Run s r u) : (runStates s r)[r.length]? = some u := by
  induction h with
  | nil s => simp [runStates]
  | cons s i s1 r u h1 _ ih => simpa [runStates] using ih

theorem runStates_length (s : State) (r : List (Nat × State)) : (runStates s r).length = r.length + 1 := by simp [runStates]

theorem runStates_append_left {s s' : State} {r r' : List (Nat × State)} {k : Nat} (hk : k ≤ r.length) :
    (runStates s (r ++ r'))[k]? = (runStates s r)[k]? := by
  unfold runStates
  rw [List.map_append, ← List.cons_append, List.getElem?_append_left (by simp; omega)]

theorem runStates_append_right {s s' : State} {r r' : List (Nat × State)} (h : t.Run s r s') (k : Nat) :
    (runStates s (r ++ r'))[r.length + k]? = (runStates s' r')[k]? := by
  cases k with
  | zero =>
    rw [Nat.add_zero, runStates_append_left (s' := s') (Nat.le_refl _), run_last h]
    simp [runStates]
  | succ k =>
    unfold runStates
    rw [List.map_append, ← List.cons_append, List.getElem?_append_right (by simp)]
    simp only [List.length_cons, List.length_map]
    rw [show r.length + (k + 1) - (r.length + 1) = k by omega]
    simp

variable {L : State → Prop}

theorem holdsAt_left {s : State} {r r' : List (Nat × State)} {k : Nat} (hk : k ≤ r.length) :
    HoldsAt L (runStates s (r ++ r')) k ↔ HoldsAt L (runStates s r) k := by
  unfold HoldsAt
  rw [runStates_append_left (s' := s) hk]

theorem holdsAt_right {s s' : State} {r r' : List (Nat × State)} (h : t.Run s r s') (k : Nat) :
    HoldsAt L (runStates s (r ++ r')) (r.length + k) ↔ HoldsAt L (runStates s' r') k := by
  unfold HoldsAt
  rw [runStates_append_right h]

theorem addedAt_right {s s' : State} {r r' : List (Nat × State)} (h : t.Run s r s') (k : Nat) :
    AddedAt L (runStates s (r ++ r')) (r.length + (k + 1)) ↔ AddedAt L (runStates s' r') (k + 1) := by
  unfold AddedAt
  rw [holdsAt_right h]
  constructor
  · rintro ⟨h1, h2⟩
    refine ⟨h1, fun j hj => ?_⟩
    have := h2 (r.length + j) (by omega)
    rwa [holdsAt_right h] at this
  · rintro ⟨h1, h2⟩
    refine ⟨h1, fun j hj => ?_⟩
    have : j = r.length + k := by omega
    subst this
    rw [holdsAt_right h]
    exact h2 k rfl

theorem holdsAt_zero {s : State} {r : List (Nat × State)} : HoldsAt L (runStates s r) 0 ↔ L s := by
  simp [HoldsAt, runStates]

theorem holdsAt_last {s u : State} {r : List (Nat × State)} (h : t.Run s r u) : HoldsAt L (runStates s r) r.length ↔ L u := by
  simp [HoldsAt, run_last h]

/-- a formula that holds somewhere holds somewhere for the first time -/
theorem exists_first {ss : List State} {k : Nat} (h : HoldsAt L ss k) : ∃ j ≤ k, FirstAt L ss j := by
  induction k using Nat.strongRecOn with
  | _ k ih =>
    by_cases h' : ∃ j < k, HoldsAt L ss j
    · obtain ⟨j, hj, hh⟩ := h'
      obtain ⟨i, hi, hf⟩ := ih j hj hh
      exact ⟨i, by omega, hf⟩
    · exact ⟨k, Nat.le_refl _, h, fun j hj hh => h' ⟨j, hj, hh⟩⟩

theorem FirstAt.added {ss : List State} {k : Nat} (h : FirstAt L ss k) : AddedAt L ss k := ⟨h.1, fun j hj => h.2 j (by omega)⟩

/-- a formula that does not hold in one state but in a later one becomes true between them -/
theorem exists_added {ss : List State} {i k : Nat} (hik : i ≤ k) (hi : ¬HoldsAt L ss i) (hk : HoldsAt L ss k) :
    ∃ j, i ≤ j ∧ j + 1 ≤ k ∧ AddedAt L ss (j + 1) := by
  induction k with
  | zero =>
    have : i = 0 := by omega
    subst this
    exact absurd hk hi
  | succ k ih =>
    have hne : i ≠ k + 1 := by rintro rfl; exact hi hk
    by_cases h' : HoldsAt L ss k
    · obtain ⟨j, h1, h2, h3⟩ := ih (by omega) h'
      exact ⟨j, h1, by omega, h3⟩
    · exact ⟨k, by omega, Nat.le_refl _, hk, fun j hj => by have : j = k := by omega
                                                            subst this; exact h'⟩

end runs

section bits

theorem write_some {l : Bits} {i : Nat} (b : Bool) (h : i < l.length) : Bits.write l i b = some (l.set i b) := by
  simp [Bits.write, h]

/-- one iteration of a pass over two bit sets resets bit `i` of the first if `cp` and sets bit `i` of the second if `cf` -/
def Changes (i : Nat) (cp cf : Prop) (b b' : Bits × Bits) : Prop :=
  b'.1.length = b.1.length ∧ b'.2.length = b.2.length ∧ ∀ j < b.1.length,
    (b'.1[j]? = some false ↔ b.1[j]? = some false ∨ (j = i ∧ cp)) ∧ (b'.2[j]? = some true ↔ b.2[j]? = some true ∨ (j = i ∧ cf))

theorem bit_cases {l : Bits} {i : Nat} (h : i < l.length) : l[i]? = some true ∨ l[i]? = some false := by
  rw [List.getElem?_eq_getElem h]
  cases l[i] <;> simp

theorem bit_eq {l l' : Bits} {i : Nat} (h : i < l.length) (h' : i < l'.length) (he : l[i]? = some false ↔ l'[i]? = some false) : l[i]? = l'[i]? := by
  rcases bit_cases h with h1 | h1 <;> rcases bit_cases h' with h2 | h2 <;> simp_all

theorem foldlM_bits {α : Type} (body : Bits × Bits → α → Option (Bits × Bits)) (n : Nat) (idx : α → Nat) (cp cf : α → Prop) (p0 : Bits) :
    ∀ (xs : List α) (p f : Bits), p.length = n → f.length = n → p0.length = n → (xs.map idx).Nodup → (∀ x ∈ xs, idx x < n) →
      (∀ x ∈ xs, p[idx x]? = p0[idx x]?) →
      (∀ x ∈ xs, ∀ p f : Bits, p.length = n → f.length = n → p[idx x]? = p0[idx x]? → ∃ b', body (p, f) x = some b' ∧ Changes (idx x) (cp x) (cf x) (p, f) b') →
      ∃ p' f', xs.foldlM body (p, f) = some (p', f') ∧ p'.length = n ∧ f'.length = n ∧ ∀ i < n,
        (p'[i]? = some false ↔ p[i]? = some false ∨ ∃ x ∈ xs, idx x = i ∧ cp x) ∧ (f'[i]? = some true ↔ f[i]? = some true ∨ ∃ x ∈ xs, idx x = i ∧ cf x)
  | [], p, f, hp, hf, _, _, _, _, _ => ⟨p, f, rfl, hp, hf, by simp⟩
  | x :: xs, p, f, hp, hf, hp0, hnd, hlt, heq, hbody => by
    obtain ⟨⟨p1, f1⟩, h1, g1, g2, g3⟩ := hbody x (by simp) p f hp hf (heq x (by simp))
    simp only at g1 g2 g3
    rw [List.map_cons, List.nodup_cons] at hnd
    obtain ⟨p', f', k1, k2, k3, k4⟩ := foldlM_bits body n idx cp cf p0 xs p1 f1 (by omega) (by omega) hp0 hnd.2 (fun y hy => hlt y (by simp [hy]))
      (fun y hy => by
        rw [← heq y (by simp [hy])]
        have hl := hlt y (by simp [hy])
        refine bit_eq (by omega) (by omega) ?_
        rw [(g3 _ (by omega)).1]
        constructor
        · rintro (h | ⟨h, _⟩)
          · exact h
          · exact absurd (List.mem_map.mpr ⟨y, hy, h⟩) hnd.1
        · exact Or.inl)
      (fun y hy => hbody y (by simp [hy]))
    refine ⟨p', f', by rw [List.foldlM_cons, h1]; exact k1, k2, k3, fun i hi => ?_⟩
    obtain ⟨m1, m2⟩ := k4 i hi
    obtain ⟨m3, m4⟩ := g3 i (by omega)
    rw [m1, m2, m3, m4]
    constructor
    · constructor
      · rintro ((h | ⟨rfl, h⟩) | ⟨y, hy, h⟩)
        · exact Or.inl h
        · exact Or.inr ⟨x, by simp, rfl, h⟩
        · exact Or.inr ⟨y, by simp [hy], h⟩
      · rintro (h | ⟨y, hy, h, h'⟩)
        · exact Or.inl (Or.inl h)
        · rcases List.mem_cons.mp hy with rfl | hy
          · exact Or.inl (Or.inr ⟨h.symm, h'⟩)
          · exact Or.inr ⟨y, hy, h, h'⟩
    · constructor
      · rintro ((h | ⟨rfl, h⟩) | ⟨y, hy, h⟩)
        · exact Or.inl h
        · exact Or.inr ⟨x, by simp, rfl, h⟩
        · exact Or.inr ⟨y, by simp [hy], h⟩
      · rintro (h | ⟨y, hy, h, h'⟩)
        · exact Or.inl (Or.inl h)
        · rcases List.mem_cons.mp hy with rfl | hy
          · exact Or.inl (Or.inr ⟨h.symm, h'⟩)
          · exact Or.inr ⟨y, hy, h, h'⟩

/-- a pass that sets bits -/
theorem foldlM_set {α : Type} (body : Bits → α → Option Bits) (n : Nat) (idx : α → Nat) (c : α → Prop) :
    ∀ (xs : List α) (f : Bits), f.length = n → (∀ x ∈ xs, idx x < n) →
      (∀ x ∈ xs, ∀ f : Bits, f.length = n → ∃ b, body f x = some (if b then f.set (idx x) true else f) ∧ (b = true ↔ c x)) →
      ∃ f', xs.foldlM body f = some f' ∧ f'.length = n ∧ ∀ i < n, (f'[i]? = some true ↔ f[i]? = some true ∨ ∃ x ∈ xs, idx x = i ∧ c x)
  | [], f, hf, _, _ => ⟨f, rfl, hf, by simp⟩
  | x :: xs, f, hf, hlt, hbody => by
    obtain ⟨b, h1, h2⟩ := hbody x (by simp) f hf
    have hl : (if b then f.set (idx x) true else f).length = n := by cases b <;> simp [hf]
    obtain ⟨f', k1, k2, k3⟩ := foldlM_set body n idx c xs _ hl (fun y hy => hlt y (by simp [hy])) (fun y hy => hbody y (by simp [hy]))
    refine ⟨f', by rw [List.foldlM_cons, h1]; exact k1, k2, fun i hi => ?_⟩
    rw [k3 i hi]
    have : ((if b then f.set (idx x) true else f)[i]? = some true) ↔ f[i]? = some true ∨ (idx x = i ∧ c x) := by
      cases b with
      | false =>
        have : ¬c x := fun h => by simpa using h2.mpr h
        simp [this]
      | true =>
        have hc : c x := h2.mp rfl
        simp only [if_true, List.getElem?_set, hc, and_true]
        by_cases he : idx x = i
        · subst he; simp [hf, hi]
        · simp [he]
    rw [this]
    constructor
    · rintro ((h | ⟨rfl, h⟩) | ⟨y, hy, h⟩)
      · exact Or.inl h
      · exact Or.inr ⟨x, by simp, rfl, h⟩
      · exact Or.inr ⟨y, by simp [hy], h⟩
    · rintro (h | ⟨y, hy, h, h'⟩)
      · exact Or.inl (Or.inl h)
      · rcases List.mem_cons.mp hy with rfl | hy
        · exact Or.inl (Or.inr ⟨h, h'⟩)
        · exact Or.inr ⟨y, hy, h, h'⟩

end bits

section eval
variable {t : Task} {s : State} (hs : t.ValidState s)
include hs

theorem atomTrue_spec {f : Fact} (hf : t.ValidFact f) : ∃ b, atomTrue s f = some b ∧ (b = true ↔ f.holds s) := by
  obtain ⟨d, hd, _⟩ := hf
  have hlt : f.var < s.length := by rw [hs.1]; exact (List.getElem?_eq_some_iff.mp hd).1
  unfold atomTrue Fact.holds
  rw [List.getElem?_eq_getElem hlt]
  exact ⟨_, rfl, by simp⟩

theorem anyTrue_spec : ∀ (fs : List Fact), (∀ f ∈ fs, t.ValidFact f) → ∃ b, anyTrue s fs = some b ∧ (b = true ↔ ∃ f ∈ fs, f.holds s)
  | [], _ => ⟨false, rfl, by simp⟩
  | f :: fs, h => by
    obtain ⟨b, h1, h2⟩ := atomTrue_spec hs (h f (by simp))
    obtain ⟨b', h3, h4⟩ := anyTrue_spec fs (fun f hf => h f (by simp [hf]))
    unfold anyTrue
    rw [h1]
    cases b with
    | true => exact ⟨true, rfl, by simp [h2.mp rfl]⟩
    | false =>
      have : ¬f.holds s := fun h => by simpa using h2.mpr h
      exact ⟨b', h3, by rw [h4]; simp [this]⟩

theorem allTrue_spec : ∀ (fs : List Fact), (∀ f ∈ fs, t.ValidFact f) → ∃ b, allTrue s fs = some b ∧ (b = true ↔ allHold fs s)
  | [], _ => ⟨true, rfl, by simp [allHold]⟩
  | f :: fs, h => by
    obtain ⟨b, h1, h2⟩ := atomTrue_spec hs (h f (by simp))
    obtain ⟨b', h3, h4⟩ := allTrue_spec fs (fun f hf => h f (by simp [hf]))
    unfold allTrue
    rw [h1]
    cases b with
    | true => exact ⟨b', h3, by rw [h4]; simp [allHold, h2.mp rfl]⟩
    | false =>
      have : ¬f.holds s := fun h => by simpa using h2.mpr h
      exact ⟨false, rfl, by simp [allHold, this]⟩

theorem isTrue_spec {l : Landmark} (h : ∀ f ∈ l.atoms, t.ValidFact f) : ∃ b, l.isTrueInState s = some b ∧ (b = true ↔ l.Holds s) := by
  unfold Landmark.isTrueInState Landmark.Holds
  cases l.type with
  | disjunctive => exact anyTrue_spec hs _ h
  | atomic => exact allTrue_spec hs _ h
  | conjunctive => exact allTrue_spec hs _ h

end eval
end Verif.Landmarks
