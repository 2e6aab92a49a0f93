import Verif.Model.Invariants
import Mathlib.Data.List.Forall2
import Mathlib.Data.List.Nodup

/-
Solutions of systems of equalities and inequalities.
-/
namespace Verif.Invariants
open Verif.Datalog Verif.Lifted

section
variable {α β : Type} [DecidableEq α]

theorem foldl_merge_kernel : ∀ (es : List (α × α)) (rep : α → α) {a b : α}, rep a = rep b → es.foldl merge rep a = es.foldl merge rep b
  | [], _, _, _, h => h
  | e :: es, rep, a, b, h => foldl_merge_kernel es (merge rep e) (by simp only [merge, h])

theorem foldl_merge_eq : ∀ (es : List (α × α)) (rep : α → α) {e : α × α}, e ∈ es → es.foldl merge rep e.1 = es.foldl merge rep e.2
  | e' :: es, rep, e, h => by
    rcases List.mem_cons.mp h with rfl | h
    · refine foldl_merge_kernel es _ ?_
      simp only [merge]
      split <;> simp
    · exact foldl_merge_eq es _ h

theorem classes_eq {es : List (α × α)} {e : α × α} (h : e ∈ es) : classes es e.1 = classes es e.2 := foldl_merge_eq es id h

theorem foldl_merge_sound (ν : α → β) : ∀ (es : List (α × α)) (rep : α → α), (∀ e ∈ es, ν e.1 = ν e.2) → (∀ t, ν (rep t) = ν t) → ∀ t, ν (es.foldl merge rep t) = ν t
  | [], _, _, h => h
  | e :: es, rep, he, h => foldl_merge_sound ν es _ (fun x hx => he x (List.mem_cons_of_mem _ hx)) fun t => by
    simp only [merge]
    split
    · next h' => rw [h, he e List.mem_cons_self, ← h e.2, ← h', h]
    · exact h t

theorem classes_sound {ν : α → β} {es : List (α × α)} (h : ∀ e ∈ es, ν e.1 = ν e.2) (t : α) : ν (classes es t) = ν t := foldl_merge_sound ν es id h (fun _ => rfl) t

theorem mem_mentioned {es : List (α × α)} {t : α} : t ∈ mentioned es ↔ ∃ e ∈ es, t = e.1 ∨ t = e.2 := by simp [mentioned]

theorem classes_mentioned {es : List (α × α)} {a b : α} (h : classes es a = classes es b) (hab : a ≠ b) : a ∈ mentioned es ∧ b ∈ mentioned es := by
  let ν : α → Option α := fun t => if t ∈ mentioned es then none else some t
  have hν : ∀ e ∈ es, ν e.1 = ν e.2 := fun e he => by
    simp only [ν, if_pos (mem_mentioned.mpr ⟨e, he, .inl rfl⟩), if_pos (mem_mentioned.mpr ⟨e, he, .inr rfl⟩)]
  have h1 : ν a = ν b := by rw [← classes_sound hν a, h, classes_sound hν b]
  simp only [ν] at h1
  split at h1 <;> split at h1
  · next h2 h3 => exact ⟨h2, h3⟩
  · cases h1
  · cases h1
  · exact absurd (Option.some.inj h1) hab

end

theorem mem_product {α : Type} : ∀ {ls : List (List α)} {c : List α}, c ∈ product ls ↔ List.Forall₂ (· ∈ ·) c ls
  | [], c => by simp [product]
  | l :: ls, c => by
    simp only [product, List.mem_flatMap, List.mem_map]
    constructor
    · rintro ⟨a, ha, d, hd, rfl⟩
      exact .cons ha (mem_product.mp hd)
    · intro h
      cases h with
      | cons h1 h2 => exact ⟨_, h1, _, mem_product.mpr h2, rfl⟩

variable {P V O T F : Type} [DecidableEq P] [DecidableEq V] [DecidableEq O]

theorem consistent_iff {es : List (Tm V O × Tm V O)} : consistent es = true ↔ ∀ o o' : O, .obj o ∈ mentioned es → .obj o' ∈ mentioned es → classes es (.obj o) = classes es (.obj o') → o = o' := by
  simp only [consistent, List.all_eq_true]
  constructor
  · intro h o o' h1 h2 h3
    have := h _ h1 _ h2
    by_contra hne
    have hne' : (Tm.obj o : Tm V O) ≠ .obj o' := fun h => hne (Tm.obj.inj h)
    simp [Tm.isObj, h3, hne'] at this
  · intro h a ha b hb
    cases a <;> cases b <;> simp only [Tm.isObj, Bool.false_and, Bool.and_false, Bool.not_false, Bool.true_and]
    next o o' =>
      by_cases h3 : classes es (.obj o) = classes es (.obj o')
      · simp [h o o' ha hb h3]
      · simp [h3]

theorem representative_sound {β : Type} {ν : Tm V O → β} {es : List (Tm V O × Tm V O)} (h : ∀ e ∈ es, ν e.1 = ν e.2) (t : Tm V O) : ν (representative es t) = ν t := by
  unfold representative
  cases hf : (mentioned es).find? (fun a => a.isObj && classes es a == classes es t) with
  | none => exact classes_sound h t
  | some a =>
    have h1 := List.find?_some hf
    simp only [Bool.and_eq_true, beq_iff_eq] at h1
    rw [Option.getD_some, ← classes_sound h a, h1.2, classes_sound h t]

theorem representative_congr {es : List (Tm V O × Tm V O)} {a b : Tm V O} (h : classes es a = classes es b) : representative es a = representative es b := by simp only [representative, h]

theorem representative_obj {es : List (Tm V O × Tm V O)} {t : Tm V O} {o : O} (hm : .obj o ∈ mentioned es) (h : classes es (.obj o) = classes es t) : (representative es t).isObj = true := by
  unfold representative
  cases hf : (mentioned es).find? (fun a => a.isObj && classes es a == classes es t) with
  | none => exact absurd (List.find?_eq_none.mp hf _ hm) (by simp [Tm.isObj, h])
  | some a =>
    have h1 := List.find?_some hf
    simp only [Bool.and_eq_true] at h1
    exact h1.1

/-- values of terms that satisfy a system without `not_constant` make it solvable -/
theorem solvable_of_values {ν : Tm V O → O} (hobj : ∀ o, ν (.obj o) = o) {s : System V O} (he : ∀ D ∈ s.equalities, ∃ c ∈ D, ∀ e ∈ c, ν e.1 = ν e.2) (hi : ∀ d ∈ s.inequalities, ∃ x ∈ d, ν x.1 ≠ ν x.2) (hn : s.notConstant = []) : s.solvable = true := by
  have hc : ∀ ls : List (List (List (Tm V O × Tm V O))), (∀ D ∈ ls, ∃ c ∈ D, ∀ e ∈ c, ν e.1 = ν e.2) → ∃ choice, List.Forall₂ (· ∈ ·) choice ls ∧ ∀ c ∈ choice, ∀ e ∈ c, ν e.1 = ν e.2 := by
    intro ls
    induction ls with
    | nil => intro _; exact ⟨[], .nil, by simp⟩
    | cons D ls ih =>
      intro h
      obtain ⟨c, h1, h2⟩ := h D List.mem_cons_self
      obtain ⟨cs, h3, h4⟩ := ih fun D hD => h D (List.mem_cons_of_mem _ hD)
      exact ⟨c :: cs, .cons h1 h3, List.forall_mem_cons.mpr ⟨h2, h4⟩⟩
  obtain ⟨choice, h1, h2⟩ := hc _ he
  have h3 : ∀ e ∈ choice.flatten, ν e.1 = ν e.2 := fun e he => by
    obtain ⟨c, hc, he⟩ := List.mem_flatten.mp he
    exact h2 c hc e he
  rw [System.solvable, List.any_eq_true]
  refine ⟨choice, mem_product.mpr h1, ?_⟩
  rw [Bool.and_eq_true, Bool.and_eq_true]
  refine ⟨⟨consistent_iff.mpr fun o o' _ _ h => ?_, by rw [hn]; rfl⟩, ?_⟩
  · rw [← hobj o, ← classes_sound h3, h, classes_sound h3, hobj]
  · rw [List.all_eq_true]
    intro d hd
    obtain ⟨x, hx, hne⟩ := hi d hd
    rw [List.any_eq_true]
    refine ⟨x, hx, ?_⟩
    rw [bne_iff_ne]
    intro h
    exact hne (by rw [← representative_sound h3 x.1, h, representative_sound h3])

/-- a solvable system has a choice of equalities -/
theorem solvable_choice {s : System V O} (h : s.solvable = true) : ∃ choice, List.Forall₂ (· ∈ ·) choice s.equalities ∧ consistent choice.flatten = true ∧ (∀ t ∈ s.notConstant, (representative choice.flatten t).isObj = false) ∧
    ∀ d ∈ s.inequalities, ∃ x ∈ d, representative choice.flatten x.1 ≠ representative choice.flatten x.2 := by
  rw [System.solvable, List.any_eq_true] at h
  obtain ⟨choice, h1, h2⟩ := h
  rw [Bool.and_eq_true, Bool.and_eq_true] at h2
  obtain ⟨⟨h3, h4⟩, h5⟩ := h2
  refine ⟨choice, mem_product.mp h1, h3, fun t ht => by simpa using List.all_eq_true.mp h4 t ht, fun d hd => ?_⟩
  obtain ⟨x, hx, h6⟩ := List.any_eq_true.mp (List.all_eq_true.mp h5 d hd)
  exact ⟨x, hx, bne_iff_ne.mp h6⟩

theorem pairs_of_sublist {α : Type} : ∀ {l : List α} {a b : α}, [a, b].Sublist l → (a, b) ∈ pairs l
  | [], _, _, h => by simp at h
  | c :: l, a, b, h => by
    rw [pairs, List.mem_append]
    cases h with
    | cons _ h => exact .inr (pairs_of_sublist h)
    | cons_cons _ h => exact .inl (List.mem_map.mpr ⟨b, List.singleton_sublist.mp h, rfl⟩)

theorem pairs_of_mem {α : Type} : ∀ {l : List α} {a b : α}, a ∈ l → b ∈ l → a ≠ b → (a, b) ∈ pairs l ∨ (b, a) ∈ pairs l
  | c :: l, a, b, ha, hb, hne => by
    rw [pairs, List.mem_append, List.mem_append]
    rcases List.mem_cons.mp ha with h1 | h1 <;> rcases List.mem_cons.mp hb with h2 | h2
    · exact absurd (h1.trans h2.symm) hne
    · exact .inl (.inl (List.mem_map.mpr ⟨b, h2, by rw [h1]⟩))
    · exact .inr (.inl (List.mem_map.mpr ⟨a, h1, by rw [h2]⟩))
    · exact (pairs_of_mem h1 h2 hne).imp .inr .inr

theorem pairs_sublist {α : Type} : ∀ {l : List α} {x : α × α}, x ∈ pairs l → [x.1, x.2].Sublist l
  | c :: l, x, h => by
    rw [pairs, List.mem_append] at h
    rcases h with h | h
    · obtain ⟨b, hb, rfl⟩ := List.mem_map.mp h
      exact (List.singleton_sublist.mpr hb).cons_cons _
    · exact (pairs_sublist h).cons _

theorem zip_ne {α β : Type} {ν : α → β} : ∀ {l m : List α}, l.length = m.length → l.map ν ≠ m.map ν → ∃ x ∈ l.zip m, ν x.1 ≠ ν x.2
  | [], [], _, h => absurd rfl h
  | a :: l, b :: m, hl, h => by
    by_cases hab : ν a = ν b
    · obtain ⟨x, hx, hne⟩ := zip_ne (ν := ν) (l := l) (m := m) (by simpa using hl) (fun h' => h (by simp [hab, h']))
      exact ⟨x, List.mem_cons_of_mem _ hx, hne⟩
    · exact ⟨(a, b), List.mem_cons_self, hab⟩

theorem zip_eq {α β : Type} {ν : α → β} : ∀ {l m : List α}, l.length = m.length → (∀ x ∈ l.zip m, ν x.1 = ν x.2) → l.map ν = m.map ν
  | [], [], _, _ => rfl
  | a :: l, b :: m, hl, h => by
    rw [List.map_cons, List.map_cons, h (a, b) List.mem_cons_self, zip_eq (by simpa using hl) fun x hx => h x (List.mem_cons_of_mem _ hx)]

end Verif.Invariants
