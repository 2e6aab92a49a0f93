import Verif.Model.DefaultAxioms
import Mathlib.Data.List.Nodup
import Mathlib.Tactic.ByContra

/- Hitting sets: what the recursive search collects. -/
namespace Verif.DefaultAxioms

theorem mem_insertFact {f x : Fact} : ∀ {l : List Fact}, x ∈ insertFact f l ↔ x = f ∨ x ∈ l
  | [] => by simp [insertFact]
  | g :: l => by
    unfold insertFact
    split
    · rename_i h; subst h; simp
    · split
      · simp
      · simp [mem_insertFact (l := l)]; tauto

theorem factLt_spec {f g : Fact} : factLt f g = true ↔ f.var < g.var ∨ (f.var = g.var ∧ f.val < g.val) := by simp [factLt]

theorem factLt_trans {a b c : Fact} (h1 : factLt a b = true) (h2 : factLt b c = true) : factLt a c = true := by
  rw [factLt_spec] at *; omega

theorem factLt_total {a b : Fact} (h1 : ¬a = b) (h2 : ¬factLt a b = true) : factLt b a = true := by
  rw [factLt_spec] at *
  have : ¬(a.var = b.var ∧ a.val = b.val) := by
    rintro ⟨h3, h4⟩
    cases a; cases b; simp_all
  omega

def Sorted (l : List Fact) : Prop := l.Pairwise (fun a b => factLt a b = true)

theorem sorted_insert {f : Fact} : ∀ {l : List Fact}, Sorted l → Sorted (insertFact f l)
  | [], _ => by simp [insertFact, Sorted]
  | g :: l, h => by
    unfold Sorted at h
    rw [List.pairwise_cons] at h
    unfold insertFact
    split
    · exact List.pairwise_cons.mpr h
    · rename_i hne
      split
      · rename_i hlt
        refine List.pairwise_cons.mpr ⟨?_, List.pairwise_cons.mpr h⟩
        intro x hx
        rcases List.mem_cons.mp hx with rfl | hx
        · exact hlt
        · exact factLt_trans hlt (h.1 x hx)
      · rename_i hlt
        refine List.pairwise_cons.mpr ⟨?_, sorted_insert h.2⟩
        intro x hx
        rcases mem_insertFact.mp hx with rfl | hx
        · exact factLt_total hne hlt
        · exact h.1 x hx

theorem Sorted.nodup {l : List Fact} (h : Sorted l) : l.Nodup := by
  unfold Sorted at h
  refine List.Pairwise.imp ?_ h
  rintro a b hab rfl
  rw [factLt_spec] at hab
  omega

theorem mem_addOthers {f x : Fact} : ∀ {xs : List Nat} {l : List Fact}, x ∈ addOthers f xs l ↔ x ∈ l ∨ (x.var = f.var ∧ x.val ∈ xs ∧ x.val ≠ f.val)
  | [], l => by simp [addOthers]
  | y :: ys, l => by
    unfold addOthers
    split
    · rename_i h
      rw [mem_addOthers, mem_insertFact]
      constructor
      · rintro ((rfl | h') | ⟨h1, h2, h3⟩)
        · exact Or.inr ⟨rfl, by simp, h⟩
        · exact Or.inl h'
        · exact Or.inr ⟨h1, by simp [h2], h3⟩
      · rintro (h' | ⟨h1, h2, h3⟩)
        · exact Or.inl (Or.inr h')
        · rcases List.mem_cons.mp h2 with h2 | h2
          · left; left
            cases x
            simp_all
          · exact Or.inr ⟨h1, h2, h3⟩
    · rename_i h
      simp only [ne_eq, not_not] at h
      rw [mem_addOthers]
      constructor
      · rintro (h' | ⟨h1, h2, h3⟩)
        · exact Or.inl h'
        · exact Or.inr ⟨h1, by simp [h2], h3⟩
      · rintro (h' | ⟨h1, h2, h3⟩)
        · exact Or.inl h'
        · rcases List.mem_cons.mp h2 with h2 | h2
          · exact absurd (h2.trans h) h3
          · exact Or.inr ⟨h1, h2, h3⟩

theorem sorted_addOthers {f : Fact} : ∀ {xs : List Nat} {l : List Fact}, Sorted l → Sorted (addOthers f xs l)
  | [], l, h => h
  | y :: ys, l, h => by
    unfold addOthers
    split
    · exact sorted_addOthers (sorted_insert h)
    · exact sorted_addOthers h

theorem clause_spec {t : Task} : ∀ {body l c : List Fact}, Sorted l → clause t body l = some c →
    Sorted c ∧ ∀ x, x ∈ c ↔ x ∈ l ∨ ∃ f ∈ body, x.var = f.var ∧ x.val ≠ f.val ∧ t.ValidFact x
  | [], l, c, hl, h => by
    simp only [clause, Option.some.injEq] at h
    subst h
    exact ⟨hl, by simp⟩
  | f :: fs, l, c, hl, h => by
    unfold clause at h
    cases hd : t.vars[f.var]? with
    | none => rw [hd] at h; cases h
    | some d =>
      rw [hd] at h
      obtain ⟨h1, h2⟩ := clause_spec (sorted_addOthers hl) h
      refine ⟨h1, fun x => ?_⟩
      rw [h2, mem_addOthers]
      have hv : ∀ x : Fact, x.var = f.var → (t.ValidFact x ↔ x.val < d.domain) := by
        intro x hx
        unfold Task.ValidFact
        rw [hx, hd]
        simp
      constructor
      · rintro ((h | ⟨h3, h4, h5⟩) | ⟨g, h3, h4⟩)
        · exact Or.inl h
        · exact Or.inr ⟨f, by simp, h3, h5, (hv x h3).mpr (List.mem_range.mp h4)⟩
        · exact Or.inr ⟨g, by simp [h3], h4⟩
      · rintro (h | ⟨g, h3, h4, h5, h6⟩)
        · exact Or.inl (Or.inl h)
        · rcases List.mem_cons.mp h3 with rfl | h3
          · exact Or.inl (Or.inr ⟨h4, List.mem_range.mpr ((hv x h4).mp h6), h5⟩)
          · exact Or.inr ⟨g, h3, h4, h5, h6⟩

theorem clause_defined {t : Task} : ∀ {body l : List Fact}, (∀ f ∈ body, t.ValidFact f) → ∃ c, clause t body l = some c
  | [], l, _ => ⟨l, rfl⟩
  | f :: fs, l, h => by
    obtain ⟨d, hd, _⟩ := h f (by simp)
    unfold clause
    rw [hd]
    exact clause_defined (fun g hg => h g (by simp [hg]))

/-! ### The recursion -/

theorem foldl_mem {α β : Type} {P : List β → Prop} {F : List β → α → List β} (hF : ∀ l a, P l → P (F l a)) : ∀ (as : List α) (l : List β), P l → P (as.foldl F l)
  | [], _, h => h
  | a :: as, l, h => foldl_mem hF as _ (hF l a h)

theorem collect_mono (all : List (List Fact)) {x : List Fact} : ∀ (cs : List (List Fact)) (hs : List Fact) (res : List (List Fact)), x ∈ res → x ∈ collect all cs hs res
  | [], hs, res, h => by
    unfold collect
    split
    · split
      · exact h
      · simp [h]
    · exact h
  | c :: cs, hs, res, h => by
    unfold collect
    split
    · exact collect_mono all cs hs res h
    · refine foldl_mem (P := fun l => x ∈ l) ?_ c res h
      intro l a hl
      split
      · exact hl
      · exact collect_mono all cs _ _ hl

/-- what is collected hits all sets and consists of their elements -/
theorem collect_sound (all : List (List Fact)) {x : List Fact} : ∀ (cs : List (List Fact)) (hs : List Fact) (res : List (List Fact)),
    (∀ c ∈ all, c ∈ cs ∨ ∃ f ∈ c, f ∈ hs) → (∀ c ∈ cs, c ∈ all) → (∀ f ∈ hs, ∃ c ∈ all, f ∈ c) → x ∈ collect all cs hs res →
    x ∈ res ∨ ((∀ c ∈ all, ∃ f ∈ c, f ∈ x) ∧ ∀ f ∈ x, ∃ c ∈ all, f ∈ c)
  | [], hs, res, h1, h2, h3, h => by
    unfold collect at h
    have key : (∀ c ∈ all, ∃ f ∈ c, f ∈ hs) ∧ ∀ f ∈ hs, ∃ c ∈ all, f ∈ c := ⟨fun c hc => (h1 c hc).resolve_left (by simp), h3⟩
    split at h
    · split at h
      · exact Or.inl h
      · rcases List.mem_append.mp h with h | h
        · exact Or.inl h
        · rw [List.mem_singleton] at h
          subst h
          exact Or.inr key
    · exact Or.inl h
  | c :: cs, hs, res, h1, h2, h3, h => by
    unfold collect at h
    have h2' : ∀ d ∈ cs, d ∈ all := fun d hd => h2 d (by simp [hd])
    split at h
    · rename_i hc
      simp only [List.any_eq_true, decide_eq_true_eq] at hc
      refine collect_sound all cs hs res ?_ h2' h3 h
      intro d hd
      rcases h1 d hd with h | h
      · rcases List.mem_cons.mp h with rfl | h
        · exact Or.inr hc
        · exact Or.inl h
      · exact Or.inr h
    · have key : ∀ (l : List Fact) (r : List (List Fact)), (∀ f ∈ l, f ∈ c) →
          x ∈ l.foldl (fun res f => if hs.any (fun g => g.var == f.var) then res else collect all cs (insertFact f hs) res) r →
          x ∈ r ∨ ((∀ c ∈ all, ∃ f ∈ c, f ∈ x) ∧ ∀ f ∈ x, ∃ c ∈ all, f ∈ c) := by
        intro l
        induction l with
        | nil => intro r _ hx; exact Or.inl hx
        | cons f fs ih =>
          intro r hl hx
          rw [List.foldl_cons] at hx
          rcases ih _ (fun g hg => hl g (by simp [hg])) hx with h | h
          · split at h
            · exact Or.inl h
            · refine collect_sound all cs (insertFact f hs) r ?_ h2' ?_ h
              · intro d hd
                rcases h1 d hd with h | ⟨g, h4, h5⟩
                · rcases List.mem_cons.mp h with rfl | h
                  · exact Or.inr ⟨f, hl f (by simp), mem_insertFact.mpr (Or.inl rfl)⟩
                  · exact Or.inl h
                · exact Or.inr ⟨g, h4, mem_insertFact.mpr (Or.inr h5)⟩
              · intro g hg
                rcases mem_insertFact.mp hg with rfl | hg
                · exact ⟨c, h2 c (by simp), hl g (by simp)⟩
                · exact h3 g hg
          · exact Or.inr h
      exact key c res (fun f hf => hf) h

theorem filter_single {c : List Fact} (hc : c.Nodup) {p : Fact → Bool} {f : Fact} (hf : f ∈ c) (hp : p f = true) (h : ∀ g ∈ c, p g = true → g = f) : c.filter p = [f] := by
  have h1 : ∀ g ∈ c.filter p, g = f := by
    intro g hg
    rw [List.mem_filter] at hg
    exact h g hg.1 hg.2
  have h2 : f ∈ c.filter p := List.mem_filter.mpr ⟨hf, hp⟩
  have h3 := hc.filter p
  match hl : c.filter p with
  | [] => rw [hl] at h2; simp at h2
  | [a] => rw [hl] at h1; rw [h1 a (by simp)]
  | a :: b :: l =>
    rw [hl] at h1 h3
    have ha := h1 a (by simp)
    have hb := h1 b (by simp)
    rw [ha, hb] at h3
    simp at h3

/-- a minimal hitting set without two values of one variable is collected -/
theorem collect_minimal {all : List (List Fact)} (hall : ∀ c ∈ all, c.Nodup) {M : Fact → Prop} (hone : ∀ f g, M f → M g → f.var = g.var → f = g)
    (hmin : ∀ f, M f → ∃ c ∈ all, ∀ g ∈ c, M g → g = f) (hit : ∀ c ∈ all, ∃ f ∈ c, M f) :
    ∀ (cs : List (List Fact)) (hs : List Fact) (res : List (List Fact)), (∀ c ∈ all, c ∈ cs ∨ ∃ f ∈ c, f ∈ hs) → (∀ c ∈ cs, c ∈ all) → (∀ f ∈ hs, M f) →
    ∃ x ∈ collect all cs hs res, ∀ f ∈ x, M f
  | [], hs, res, h1, h2, h3 => by
    have hn : nonDominated all hs = true := by
      unfold nonDominated
      rw [List.isEmpty_iff, List.filter_eq_nil_iff]
      intro f hf
      simp only [Bool.not_eq_true', Bool.not_eq_false, List.any_eq_true, decide_eq_true_eq]
      obtain ⟨c, h4, h5⟩ := hmin f (h3 f hf)
      refine ⟨c, h4, ?_⟩
      have hfc : f ∈ c := by
        obtain ⟨g, h6, h7⟩ := hit c h4
        exact h5 g h6 h7 ▸ h6
      exact filter_single (hall c h4) hfc (by simpa using hf) (fun g hg hp => h5 g hg (h3 g (by simpa using hp)))
    unfold collect
    rw [if_pos hn]
    refine ⟨hs, ?_, h3⟩
    split
    · assumption
    · simp
  | c :: cs, hs, res, h1, h2, h3 => by
    unfold collect
    have h2' : ∀ d ∈ cs, d ∈ all := fun d hd => h2 d (by simp [hd])
    split
    · rename_i hc
      simp only [List.any_eq_true, decide_eq_true_eq] at hc
      refine collect_minimal hall hone hmin hit cs hs res ?_ h2' h3
      intro d hd
      rcases h1 d hd with h | h
      · rcases List.mem_cons.mp h with rfl | h
        · exact Or.inr hc
        · exact Or.inl h
      · exact Or.inr h
    · rename_i hc
      simp only [List.any_eq_true, decide_eq_true_eq, not_exists, not_and] at hc
      obtain ⟨f, hf, hM⟩ := hit c (h2 c (by simp))
      have hvar : ¬(hs.any (fun g => g.var == f.var)) = true := by
        simp only [List.any_eq_true, beq_iff_eq, not_exists, not_and]
        intro g hg hv
        have := hone g f (h3 g hg) hM hv
        subst this
        exact hc g hf hg
      obtain ⟨l₁, l₂, rfl⟩ := List.append_of_mem hf
      rw [List.foldl_append, List.foldl_cons, if_neg hvar]
      generalize List.foldl _ res l₁ = r1
      obtain ⟨x, h4, h5⟩ := collect_minimal hall hone hmin hit cs (insertFact f hs) r1 (by
        intro d hd
        rcases h1 d hd with h | ⟨g, h6, h7⟩
        · rcases List.mem_cons.mp h with rfl | h
          · exact Or.inr ⟨f, by simp, mem_insertFact.mpr (Or.inl rfl)⟩
          · exact Or.inl h
        · exact Or.inr ⟨g, h6, mem_insertFact.mpr (Or.inr h7)⟩) h2' (by
        intro g hg
        rcases mem_insertFact.mp hg with rfl | hg
        · exact hM
        · exact h3 g hg)
      refine ⟨x, ?_, h5⟩
      refine foldl_mem (P := fun l => x ∈ l) ?_ l₂ _ h4
      intro l a hl
      split
      · exact hl
      · exact collect_mono all cs _ _ hl

/-- there is a minimal hitting set among the elements of a hitting set -/
theorem exists_minimal {all : List (List Fact)} : ∀ (n : Nat) (L : List Fact), L.length ≤ n → (∀ c ∈ all, ∃ f ∈ c, f ∈ L) →
    ∃ M : List Fact, (∀ f ∈ M, f ∈ L) ∧ (∀ c ∈ all, ∃ f ∈ c, f ∈ M) ∧ ∀ f ∈ M, ∃ c ∈ all, ∀ g ∈ c, g ∈ M → g = f
  | 0, L, hL, h => by
    have : L = [] := List.length_eq_zero_iff.mp (by omega)
    subst this
    exact ⟨[], by simp, h, by simp⟩
  | n + 1, L, hL, h => by
    by_cases hm : ∀ f ∈ L, ∃ c ∈ all, ∀ g ∈ c, g ∈ L → g = f
    · exact ⟨L, fun _ hf => hf, h, hm⟩
    · push Not at hm
      obtain ⟨f, hf, hm⟩ := hm
      have hlen : (L.filter (fun g => decide (g ≠ f))).length < L.length := by
        refine List.length_filter_lt_length_iff_exists.mpr ⟨f, hf, by simp⟩
      obtain ⟨M, h1, h2, h3⟩ := exists_minimal n (L.filter (fun g => decide (g ≠ f))) (by omega) (by
        intro c hc
        obtain ⟨g, h4, h5, h6⟩ := hm c hc
        exact ⟨g, h4, List.mem_filter.mpr ⟨h5, by simpa using h6⟩⟩)
      exact ⟨M, fun g hg => (List.mem_filter.mp (h1 g hg)).1, h2, h3⟩

/-- The collected hitting sets are together equivalent to the conjunction of the sets, read as disjunctions, in every state. -/
theorem collect_exact {all : List (List Fact)} (hall : ∀ c ∈ all, c.Nodup) (s : State) :
    (∃ x ∈ collect all all [] [], allHold x s) ↔ ∀ c ∈ all, ∃ f ∈ c, f.holds s := by
  constructor
  · rintro ⟨x, h1, h2⟩ c hc
    rcases collect_sound all all [] [] (fun c hc => Or.inl hc) (fun c hc => hc) (by simp) h1 with h | ⟨h, _⟩
    · simp at h
    · obtain ⟨f, h3, h4⟩ := h c hc
      exact ⟨f, h3, h2 f h4⟩
  · intro h
    obtain ⟨M, h1, h2, h3⟩ := exists_minimal (all := all) _ (all.flatten.filter (fun f => decide (f.holds s))) (Nat.le_refl _) (by
      intro c hc
      obtain ⟨f, h4, h5⟩ := h c hc
      exact ⟨f, h4, List.mem_filter.mpr ⟨List.mem_flatten.mpr ⟨c, hc, h4⟩, by simpa using h5⟩⟩)
    have hM : ∀ f ∈ M, f.holds s := fun f hf => by simpa using (List.mem_filter.mp (h1 f hf)).2
    obtain ⟨x, h4, h5⟩ := collect_minimal hall (M := fun f => f ∈ M) (by
      intro f g hf hg hv
      have h6 := hM f hf
      have h7 := hM g hg
      unfold Fact.holds at h6 h7
      rw [hv, h7] at h6
      simp only [Option.some.injEq] at h6
      cases f; cases g; simp_all) h3 h2 all [] [] (fun c hc => Or.inl hc) (fun c hc => hc) (by simp)
    exact ⟨x, h4, fun f hf => hM f (h5 f hf)⟩

end Verif.DefaultAxioms
