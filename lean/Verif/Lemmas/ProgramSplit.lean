import Verif.Lemmas.ProgramJoin

/-
Lemmas about connected conditions and about splitting rules.
-/
namespace Verif.PrologProgram
open Verif.Datalog Verif.BuildModel
open scoped List
variable {P V O : Type} [DecidableEq P] [DecidableEq V] [DecidableEq O]

theorem mem_varConditions {conds : List (SymAtom P V O)} {v : V} {c : SymAtom P V O} : c ∈ varConditions conds v ↔ c ∈ conds ∧ v ∈ c.vars := by
  unfold varConditions
  rw [List.mem_filter]
  simp

theorem neighbour_iff {conds : List (SymAtom P V O)} {c d : SymAtom P V O} : d ∈ neighbours conds c ↔ ∃ v ∈ c.vars, ∃ f others, varConditions conds v = f :: others ∧ ((f = c ∧ d ∈ others) ∨ (f ≠ c ∧ d = f)) := by
  unfold neighbours
  rw [List.mem_flatMap]
  refine exists_congr fun v => and_congr_right fun _ => ?_
  cases varConditions conds v with
  | nil => simp
  | cons f others =>
    by_cases h : f = c
    · simp [h]
    · simp [h]

theorem neighbour_share {conds : List (SymAtom P V O)} {c d : SymAtom P V O} (h : d ∈ neighbours conds c) : d ∈ conds ∧ Share c d := by
  obtain ⟨v, hv, f, others, h1, h2⟩ := neighbour_iff.mp h
  have hd : d ∈ varConditions conds v := by
    rw [h1]
    rcases h2 with ⟨_, h2⟩ | ⟨_, rfl⟩
    · simp [h2]
    · simp
  exact ⟨(mem_varConditions.mp hd).1, v, hv, (mem_varConditions.mp hd).2⟩

theorem neighbour_symm {conds : List (SymAtom P V O)} {c d : SymAtom P V O} (hc : c ∈ conds) (h : d ∈ neighbours conds c) : c = d ∨ c ∈ neighbours conds d := by
  obtain ⟨v, hv, f, others, h1, h2⟩ := neighbour_iff.mp h
  by_cases hcd : c = d
  · exact .inl hcd
  refine .inr ?_
  rcases h2 with ⟨rfl, h2⟩ | ⟨h2, rfl⟩
  · have hd : d ∈ varConditions conds v := by rw [h1]; simp [h2]
    exact neighbour_iff.mpr ⟨v, (mem_varConditions.mp hd).2, f, others, h1, .inr ⟨hcd, rfl⟩⟩
  · have hd : d ∈ varConditions conds v := by rw [h1]; simp
    have hc' : c ∈ varConditions conds v := mem_varConditions.mpr ⟨hc, hv⟩
    rw [h1] at hc'
    exact neighbour_iff.mpr ⟨v, (mem_varConditions.mp hd).2, d, others, h1, .inl ⟨rfl, (List.mem_cons.mp hc').resolve_left hcd⟩⟩

/-- conditions with a common variable are connected through the first condition with this variable -/
theorem share_first {conds : List (SymAtom P V O)} {c d : SymAtom P V O} (hc : c ∈ conds) (hd : d ∈ conds) (h : Share c d) : ∃ f ∈ conds, (f = c ∨ f ∈ neighbours conds c) ∧ (d = f ∨ d ∈ neighbours conds f) := by
  obtain ⟨v, h1, h2⟩ := h
  have hc' : c ∈ varConditions conds v := mem_varConditions.mpr ⟨hc, h1⟩
  have hd' : d ∈ varConditions conds v := mem_varConditions.mpr ⟨hd, h2⟩
  cases hv : varConditions conds v with
  | nil => rw [hv] at hc'; simp at hc'
  | cons f others =>
    have hf : f ∈ varConditions conds v := by rw [hv]; simp
    rw [hv] at hd'
    refine ⟨f, (mem_varConditions.mp hf).1, ?_, ?_⟩
    · by_cases hfc : f = c
      · exact .inl hfc
      · exact .inr (neighbour_iff.mpr ⟨v, h1, f, others, hv, .inr ⟨hfc, rfl⟩⟩)
    · rcases List.mem_cons.mp hd' with h | h
      · exact .inl h
      · exact .inr (neighbour_iff.mpr ⟨v, (mem_varConditions.mp hf).2, f, others, hv, .inl ⟨rfl, h⟩⟩)

theorem connected_append {l : List (SymAtom P V O)} {c : SymAtom P V O} (hl : Connected l) (h : l = [] ∨ ∃ d ∈ l, Share d c) : Connected (l ++ [c]) := by
  rcases h with rfl | ⟨d, hd, hsh⟩
  · rintro S ⟨x, hx, hS⟩ ⟨y, hy, hS'⟩
    simp only [List.nil_append, List.mem_singleton] at hx hy
    subst hx hy
    exact absurd hS hS'
  · have key : ∀ S : SymAtom P V O → Prop, S c → (∃ y ∈ l, ¬ S y) → ∃ x ∈ l ++ [c], ∃ y ∈ l ++ [c], S x ∧ ¬ S y ∧ Share x y := by
      rintro S hS ⟨y, hy, hS'⟩
      by_cases hSd : S d
      · obtain ⟨x, hx, y, hy, h1⟩ := hl S ⟨d, hd, hSd⟩ ⟨y, hy, hS'⟩
        exact ⟨x, by simp [hx], y, by simp [hy], h1⟩
      · exact ⟨c, by simp, d, by simp [hd], hS, hSd, hsh.symm⟩
    rintro S ⟨x, hx, hS⟩ ⟨y, hy, hS'⟩
    rw [List.mem_append, List.mem_singleton] at hx hy
    by_cases hSc : S c
    · exact key S hSc ⟨y, hy.resolve_right (fun h => hS' (h ▸ hSc)), hS'⟩
    · obtain ⟨c1, h1, d1, h2, h3, h4, h5⟩ := key (fun x => ¬ S x) hSc ⟨x, hx.resolve_right (fun h => hSc (h ▸ hS)), not_not.mpr hS⟩
      exact ⟨d1, h2, c1, h1, not_not.mp h4, h3, h5.symm⟩

theorem visit_spec {conds : List (SymAtom P V O)} : ∀ (n : Nat) (stack remaining comp : List (SymAtom P V O)), remaining.length ≤ n → remaining.Nodup → Connected comp → (∀ c ∈ stack, comp = [] ∨ ∃ d ∈ comp, Share d c) → (comp = [] → ∃ c, stack = [c]) →
    (∀ c ∈ comp, ∀ d ∈ neighbours conds c, d ∈ remaining → d ∈ stack) →
    Connected (visit conds n stack remaining comp) ∧ (∀ c ∈ comp, c ∈ visit conds n stack remaining comp) ∧ (∀ c ∈ visit conds n stack remaining comp, c ∈ comp ∨ c ∈ remaining) ∧
    (∀ c ∈ visit conds n stack remaining comp, ∀ d ∈ remaining, d ∉ visit conds n stack remaining comp → d ∉ neighbours conds c) ∧ (comp = [] → ∀ c ∈ stack, c ∈ remaining → c ∈ visit conds n stack remaining comp)
  | 0, stack, remaining, comp, hlen, _, hcon, _, _, _ => by
    have hr : remaining = [] := List.length_eq_zero_iff.mp (by omega)
    subst hr
    rw [visit]
    exact ⟨hcon, fun c h => h, fun c h => .inl h, by simp, by simp⟩
  | n + 1, stack, remaining, comp, hlen, hnd0, hcon, hstack, hone, hnb => by
    rw [visit]
    split
    · rename_i hf
      have hnone : ∀ c ∈ stack, c ∉ remaining := fun c hc h => by
        have : c ∈ stack.filter (fun c => remaining.contains c) := List.mem_filter.mpr ⟨hc, by simpa using h⟩
        rw [hf] at this
        simp at this
      exact ⟨hcon, fun c h => h, fun c h => .inl h, fun c hc d hd _ hn => hnone d (hnb c hc d hn hd) hd, fun _ c hc h => absurd h (hnone c hc)⟩
    · rename_i c stack' hf
      have hc : c ∈ stack.filter (fun c => remaining.contains c) := by rw [hf]; simp
      have hcs : c ∈ stack := (List.mem_filter.mp hc).1
      have hcr : c ∈ remaining := by simpa using (List.mem_filter.mp hc).2
      have hstack' : ∀ d ∈ stack', d ∈ stack := fun d hd => by
        have : d ∈ stack.filter (fun c => remaining.contains c) := by rw [hf]; simp [hd]
        exact (List.mem_filter.mp this).1
      obtain ⟨h1, h2, h3, h4, _⟩ := visit_spec (conds := conds) n (neighbours conds c ++ stack') (remaining.erase c) (comp ++ [c]) (by rw [List.length_erase_of_mem hcr]; omega) (hnd0.erase c) (connected_append hcon (hstack c hcs)) (by
          intro d hd
          refine .inr ?_
          rcases List.mem_append.mp hd with hd | hd
          · exact ⟨c, by simp, (neighbour_share hd).2⟩
          · rcases hstack d (hstack' d hd) with h | ⟨x, hx, h⟩
            · obtain ⟨c', hc'⟩ := hone h
              subst hc'
              simp only [List.mem_singleton] at hcs
              have : (c :: stack').length ≤ 1 := by rw [← hf]; exact (List.length_filter_le _ _).trans (by simp)
              have : stack' = [] := List.length_eq_zero_iff.mp (by simpa using this)
              rw [this] at hd
              simp at hd
            · exact ⟨x, by simp [hx], h⟩) (by simp) (by
          intro x hx d hd hdr
          rw [List.mem_append, List.mem_singleton] at hx
          rcases hx with hx | rfl
          · have hds := hnb x hx d hd (List.mem_of_mem_erase hdr)
            by_cases hdc : d = c
            · subst hdc
              exact absurd hdr hnd0.not_mem_erase
            · have : d ∈ stack.filter (fun c => remaining.contains c) := List.mem_filter.mpr ⟨hds, by simpa using List.mem_of_mem_erase hdr⟩
              rw [hf] at this
              exact List.mem_append_right _ ((List.mem_cons.mp this).resolve_left hdc)
          · exact List.mem_append_left _ hd)
      refine ⟨h1, fun x hx => h2 x (by simp [hx]), fun x hx => ?_, fun x hx d hd hnd => ?_, fun h x hx hxr => ?_⟩
      · rcases h3 x hx with h | h
        · rw [List.mem_append, List.mem_singleton] at h
          rcases h with h | rfl
          · exact .inl h
          · exact .inr hcr
        · exact .inr (List.mem_of_mem_erase h)
      · have hdc : d ≠ c := fun h => hnd (h ▸ h2 c (by simp))
        exact h4 x hx d ((List.mem_erase_of_ne hdc).mpr hd) hnd
      · obtain ⟨c', hc'⟩ := hone h
        subst hc'
        simp only [List.mem_singleton] at hcs hx
        exact h2 x (by simp [hx, hcs])

/-- conditions of two groups have no common variables -/
def Apart (g h : List (SymAtom P V O)) : Prop := ∀ c ∈ g, ∀ d ∈ h, ¬ Share c d

theorem components_spec {e : Env P V O} (he : e.Ok) {conds : List (SymAtom P V O)} : ∀ (n : Nat) (remaining : List (SymAtom P V O)), remaining.length ≤ n → remaining.Nodup → (∀ c ∈ remaining, c ∈ conds) → (∀ c ∈ remaining, ∀ d ∈ neighbours conds c, d ∈ remaining) →
    (∀ c, c ∈ (components e conds n remaining).flatten ↔ c ∈ remaining) ∧ (∀ g ∈ components e conds n remaining, g ≠ [] ∧ Connected g) ∧ (components e conds n remaining).Pairwise Apart
  | 0, remaining, hlen, _, _, _ => by
    have hr : remaining = [] := List.length_eq_zero_iff.mp (by omega)
    subst hr
    simp [components]
  | n + 1, [], _, _, _, _ => by simp [components]
  | n + 1, c :: remaining, hlen, hnd, hsub, hcl => by
    rw [components]
    obtain ⟨h1, _, h3, h4, h5⟩ := visit_spec (conds := conds) (c :: remaining).length [c] (c :: remaining) [] (Nat.le_refl _) hnd (by rintro S ⟨x, hx, _⟩; simp at hx) (fun _ _ => .inl rfl) (fun _ => ⟨c, rfl⟩) (by simp)
    have hc := h5 rfl c (by simp) (by simp)
    generalize visit conds (c :: remaining).length [c] (c :: remaining) [] = comp at *
    have hcomp : ∀ x ∈ comp, x ∈ c :: remaining := fun x hx => (h3 x hx).resolve_left (by simp)
    have hmem : ∀ x, x ∈ (c :: remaining).filter (fun d => !comp.contains d) ↔ x ∈ c :: remaining ∧ x ∉ comp := fun x => by rw [List.mem_filter]; simp
    have hlen' : ((c :: remaining).filter (fun d => !comp.contains d)).length ≤ n := by
      rw [List.filter_cons_of_neg (by simpa using hc)]
      exact (List.length_filter_le _ _).trans (by simpa using hlen)
    obtain ⟨i1, i2, i3⟩ := components_spec he n _ hlen' (hnd.filter _) (fun x hx => hsub x ((hmem x).mp hx).1) (by
      intro x hx d hd
      obtain ⟨hx1, hx2⟩ := (hmem x).mp hx
      refine (hmem d).mpr ⟨hcl x hx1 d hd, fun hdc => ?_⟩
      rcases neighbour_symm (hsub x hx1) hd with h | h
      · exact hx2 (h ▸ hdc)
      · exact h4 d hdc x hx1 hx2 h)
    generalize components e conds n ((c :: remaining).filter (fun d => !comp.contains d)) = gs at *
    refine ⟨fun x => ?_, fun g hg => ?_, List.pairwise_cons.mpr ⟨fun g hg x hx y hy hsh => ?_, i3⟩⟩
    · rw [List.flatten_cons, List.mem_append, (he.atoms comp).mem_iff, i1, hmem]
      constructor
      · rintro (h | h)
        · exact hcomp x h
        · exact h.1
      · intro h
        by_cases hx : x ∈ comp
        · exact .inl hx
        · exact .inr ⟨h, hx⟩
    · rcases List.mem_cons.mp hg with rfl | hg
      · refine ⟨fun h => ?_, connected_congr h1 fun x => ((he.atoms comp).mem_iff).symm⟩
        have := (he.atoms comp).mem_iff.mpr hc
        rw [h] at this
        simp at this
      · exact i2 g hg
    · have hx' := (he.atoms comp).mem_iff.mp hx
      obtain ⟨hy1, hy2⟩ := (hmem y).mp ((i1 y).mp (List.mem_flatten.mpr ⟨g, hg, hy⟩))
      obtain ⟨f, hf, hf1, hf2⟩ := share_first (hsub x (hcomp x hx')) (hsub y hy1) hsh
      have hfc : f ∈ comp := by
        rcases hf1 with rfl | hf1
        · exact hx'
        · by_contra hn
          exact h4 x hx' f (hcl x (hcomp x hx') f hf1) hn hf1
      rcases hf2 with rfl | hf2
      · exact hy2 hfc
      · exact h4 f hfc y hy1 hy2 hf2

theorem connectedConditions_spec {e : Env P V O} (he : e.Ok) (conds : List (SymAtom P V O)) :
    (∀ c, c ∈ (connectedConditions e conds).flatten ↔ c ∈ conds) ∧ (∀ g ∈ connectedConditions e conds, g ≠ [] ∧ Connected g) ∧ (connectedConditions e conds).Pairwise Apart := by
  obtain ⟨h1, h2, h3⟩ := components_spec he (conds := conds) conds.dedup.length conds.dedup (Nat.le_refl _) (List.nodup_dedup _) (fun c hc => List.mem_dedup.mp hc) (fun c _ d hd => List.mem_dedup.mpr (neighbour_share hd).1)
  have hp := he.groups (components e conds conds.dedup.length conds.dedup)
  refine ⟨fun c => ?_, fun g hg => h2 g (hp.mem_iff.mp hg), ?_⟩
  · unfold connectedConditions
    rw [hp.flatten.mem_iff, h1, List.mem_dedup]
  · exact (hp.pairwise_iff (fun {g h} hgh c hc d hd hs => hgh d hd c hc hs.symm)).mpr h3

theorem splitBinary_ok {e : Env P V O} (he : e.Ok) {r : Clause P V O} {k : Nat} (hn : r.conditions ≠ []) (ht : Tidy r.effect r.conditions) (hc : Connected r.conditions) (hne : ∀ c ∈ r.conditions, c.vars ≠ [])
    (hnew : ∀ b ∈ r.effect :: r.conditions, ∀ i, k ≤ i → b.pred ≠ e.name i) : ∃ rs k', splitBinary e r k = some (rs, k') ∧ k ≤ k' ∧ Impl e.name (fun i => k ≤ i ∧ i < k') r.effect r.conditions rs := by
  unfold splitBinary
  split
  · rename_i h
    have hl : r.conditions.length = 1 := by
      have := List.length_pos_of_ne_nil hn
      omega
    obtain ⟨c, hc1⟩ := List.length_eq_one_iff.mp hl
    refine ⟨_, _, rfl, Nat.le_refl _, (Impl.single (⟨.project, r.effect, r.conditions⟩ : Datalog.Rule P V O) ⟨ht.bound, ht.head, ht.body, fun h => by simp at h, fun h => by simp at h, fun _ => ⟨c, hc1⟩⟩).congr (fun _ => Iff.rfl) (fun _ h => h.elim)⟩
  · rename_i h
    exact joinLoop_ok he (r.conditions.length - 1) r.conditions k (by omega) (by omega) ht hc hne hnew

theorem projectRule_vars {e : Env P V O} (he : e.Ok) {effect : SymAtom P V O} {conds : List (SymAtom P V O)} {k : Nat} {v : V} : v ∈ (projectRule e effect conds k).effect.vars ↔ v ∈ effect.vars ∧ ∃ c ∈ conds, v ∈ c.vars := by
  unfold projectRule
  rw [mem_vars, (he.terms _).mem_iff, List.mem_dedup, List.mem_filter, ← mem_vars (a := effect)]
  refine and_congr_right fun _ => ?_
  simp

theorem projectRule_nodup {e : Env P V O} (he : e.Ok) {effect : SymAtom P V O} {conds : List (SymAtom P V O)} {k : Nat} : (projectRule e effect conds k).effect.vars.Nodup := filterMap_nodup ((he.terms _).nodup_iff.mpr (List.nodup_dedup _))

theorem splitAll_ok {e : Env P V O} (he : e.Ok) {effect : SymAtom P V O} {rs0 : List (Datalog.Rule P V O)} : ∀ (gs : List (List (SymAtom P V O))) (H : List (SymAtom P V O)) (k K : Nat), k + gs.length ≤ K → (∀ g ∈ gs, g ≠ [] ∧ Connected g) → gs.Pairwise Apart → (∀ g ∈ gs, Apart g H) →
    (∀ g ∈ gs, ∀ c ∈ g, c.vars ≠ [] ∧ c.vars.Nodup) → (∀ b ∈ effect :: (H ++ gs.flatten), ∀ i, k ≤ i → b.pred ≠ e.name i) → Impl e.name (fun _ => False) effect (H ++ (projectRules e effect gs k).map (·.effect)) rs0 →
    ∃ rs K', splitAll e (projectRules e effect gs k) K = some (rs, K') ∧ K ≤ K' ∧ Impl e.name (fun i => (k ≤ i ∧ i < k + gs.length) ∨ (K ≤ i ∧ i < K')) effect (H ++ gs.flatten) (rs ++ rs0)
  | [], H, k, K, _, _, _, _, _, _, h0 => ⟨[], K, rfl, Nat.le_refl _, h0.congr (fun _ => by simp [projectRules]) (fun _ h => h.elim)⟩
  | g :: gs, H, k, K, hK, hg, hap, hapH, hv, hnew, h0 => by
    rw [List.length_cons] at hK
    rw [projectRules, splitAll]
    rw [projectRules, List.map_cons] at h0
    rw [List.pairwise_cons] at hap
    have hflat : ∀ c, c ∈ g → c ∈ (g :: gs).flatten := fun c hc => by simp [hc]
    have hflat' : ∀ c, c ∈ gs.flatten → c ∈ (g :: gs).flatten := fun c hc => by rw [List.flatten_cons]; exact List.mem_append_right _ hc
    have hEp : (projectRule e effect g k).effect.pred = e.name k := rfl
    have hEc : (projectRule e effect g k).conditions = g := rfl
    obtain ⟨rs1, K1, hs1, hK1, himpl1⟩ := splitBinary_ok he (r := projectRule e effect g k) (k := K) (hg g (by simp)).1 ⟨projectRule_nodup he, fun c hc => (hv g (by simp) c hc).2, fun v hv' => ((projectRule_vars he).mp hv').2⟩ (hg g (by simp)).2 (fun c hc => (hv g (by simp) c hc).1) (by
      intro b hb i hi
      rcases List.mem_cons.mp hb with rfl | hb
      · rw [hEp]
        intro h
        have := he.name _ _ h
        omega
      · exact hnew b (List.mem_cons_of_mem _ (List.mem_append_right _ (hflat b hb))) i (by omega))
    rw [hEc] at himpl1
    obtain ⟨rs, K', hs, hK', himpl⟩ := splitAll_ok he gs (H ++ [(projectRule e effect g k).effect]) (k + 1) K1 (by omega) (fun g' hg' => hg g' (by simp [hg'])) hap.2 (by
      intro g' hg' c hc d hd hsh
      rcases List.mem_append.mp hd with hd | hd
      · exact hapH g' (by simp [hg']) c hc d hd hsh
      · rw [List.mem_singleton] at hd
        subst hd
        obtain ⟨v, h1, h2⟩ := hsh
        obtain ⟨_, x, hx, hvx⟩ := (projectRule_vars he).mp h2
        exact hap.1 g' hg' x hx c hc ⟨v, hvx, h1⟩) (fun g' hg' => hv g' (by simp [hg'])) (by
      intro b hb i hi
      simp only [List.mem_cons, List.mem_append, List.not_mem_nil, or_false] at hb
      rcases hb with rfl | (hb | rfl) | hb
      · exact hnew effect (by simp) i (by omega)
      · exact hnew b (by simp [hb]) i (by omega)
      · rw [hEp]
        intro h
        have := he.name _ _ h
        omega
      · exact hnew b (List.mem_cons_of_mem _ (List.mem_append_right _ (hflat' b hb))) i (by omega)) (by
      rw [List.append_assoc]
      exact h0)
    refine ⟨rs1 ++ rs, K', by rw [hs1]; simp only []; rw [hs]; rfl, by omega, ?_⟩
    rw [List.append_assoc]
    refine (Impl.fold he.name (i0 := k) (G := g) (H := H ++ gs.flatten) hEp (fun c => ?_) (fun c => ?_) ?_ ?_ ?_ himpl1 himpl ?_ ?_ ?_).congr (fun _ => Iff.rfl) ?_
    · simp only [List.flatten_cons, List.mem_append]
      tauto
    · simp only [List.mem_append, List.mem_singleton]
      tauto
    · intro a ha i hi
      refine hnew a ha i ?_
      rcases hi with h | h | h | h <;> omega
    · intro v hv'
      exact ((projectRule_vars he).mp hv').2
    · intro c hc v hvc hv'
      refine (projectRule_vars he).mpr ⟨?_, c, hc, hvc⟩
      rcases hv' with h | ⟨d, hd, h⟩
      · exact h
      · exfalso
        rcases List.mem_append.mp hd with hd | hd
        · exact hapH g (by simp) c hc d hd ⟨v, hvc, h⟩
        · obtain ⟨g', hg', hd⟩ := List.mem_flatten.mp hd
          exact hap.1 g' hg' c hc d hd ⟨v, hvc, h⟩
    · intro i h1 h2
      omega
    · omega
    · omega
    · intro i hi
      rw [List.length_cons]
      omega

theorem mem_projectRules {e : Env P V O} {effect : SymAtom P V O} : ∀ (gs : List (List (SymAtom P V O))) (k : Nat) (x : Clause P V O), x ∈ projectRules e effect gs k → ∃ g ∈ gs, ∃ j, x = projectRule e effect g j
  | [], _, _, h => by simp [projectRules] at h
  | g :: gs, k, x, h => by
    rw [projectRules] at h
    rcases List.mem_cons.mp h with rfl | h
    · exact ⟨g, by simp, k, rfl⟩
    · obtain ⟨g', hg', j, hj⟩ := mem_projectRules gs (k + 1) x h
      exact ⟨g', by simp [hg'], j, hj⟩

theorem projectRules_mem {e : Env P V O} {effect : SymAtom P V O} : ∀ (gs : List (List (SymAtom P V O))) (k : Nat) (g : List (SymAtom P V O)), g ∈ gs → ∃ j, projectRule e effect g j ∈ projectRules e effect gs k
  | [], _, _, h => by simp at h
  | g' :: gs, k, g, h => by
    rw [projectRules]
    rcases List.mem_cons.mp h with rfl | h
    · exact ⟨k, by simp⟩
    · obtain ⟨j, hj⟩ := projectRules_mem (e := e) (effect := effect) gs (k + 1) g h
      exact ⟨j, by simp [hj]⟩

theorem projectRules_length {e : Env P V O} {effect : SymAtom P V O} : ∀ (gs : List (List (SymAtom P V O))) (k : Nat), (projectRules e effect gs k).length = gs.length
  | [], _ => rfl
  | _ :: gs, k => by simp [projectRules, projectRules_length gs (k + 1)]

theorem projectRules_apart {e : Env P V O} (he : e.Ok) {effect : SymAtom P V O} : ∀ (gs : List (List (SymAtom P V O))) (k : Nat), gs.Pairwise Apart → (projectRules e effect gs k).Pairwise (fun x y => ¬ Share x.effect y.effect)
  | [], _, _ => .nil
  | g :: gs, k, h => by
    rw [List.pairwise_cons] at h
    rw [projectRules, List.pairwise_cons]
    refine ⟨fun y hy hsh => ?_, projectRules_apart he gs (k + 1) h.2⟩
    obtain ⟨g', hg', j, rfl⟩ := mem_projectRules gs _ y hy
    obtain ⟨v, h1, h2⟩ := hsh
    obtain ⟨_, c, hc, hvc⟩ := (projectRule_vars he).mp h1
    obtain ⟨_, d, hd, hvd⟩ := (projectRule_vars he).mp h2
    exact h.1 g' hg' c hc d hd ⟨v, hvc, hvd⟩

theorem splitRule_ok {e : Env P V O} (he : e.Ok) {r : Clause P V O} {k : Nat} (hn : r.conditions ≠ []) (ht : Tidy r.effect r.conditions) (hnew : ∀ b ∈ r.effect :: r.conditions, ∀ i, k ≤ i → b.pred ≠ e.name i) :
    ∃ rs k', splitRule e r k = some (rs, k') ∧ k ≤ k' ∧ Impl e.name (fun i => k ≤ i ∧ i < k') r.effect r.conditions rs := by
  obtain ⟨h1, h2, h3⟩ := connectedConditions_spec he (r.conditions.filter (fun c => !c.vars.isEmpty))
  have hv1 : ∀ c, c ∈ r.conditions.filter (fun c => !c.vars.isEmpty) ↔ c ∈ r.conditions ∧ c.vars ≠ [] := fun c => by rw [List.mem_filter]; simp
  have hv0 : ∀ c, c ∈ r.conditions.filter (fun c => c.vars.isEmpty) ↔ c ∈ r.conditions ∧ c.vars = [] := fun c => by rw [List.mem_filter]; simp
  unfold splitRule
  generalize hgs : connectedConditions e (r.conditions.filter (fun c => !c.vars.isEmpty)) = gs at *
  generalize r.conditions.filter (fun c => !c.vars.isEmpty) = cv at *
  generalize r.conditions.filter (fun c => c.vars.isEmpty) = c0 at *
  split
  · rename_i hcase
    obtain ⟨g, hg⟩ := List.length_eq_one_iff.mp hcase.1
    subst hg
    have hvars : ∀ c ∈ r.conditions, c.vars ≠ [] := fun c hc h => by
      have := (hv0 c).mpr ⟨hc, h⟩
      rw [hcase.2] at this
      simp at this
    refine splitBinary_ok he hn ht (connected_congr (h2 g (by simp)).2 fun c => ?_) hvars hnew
    have := h1 c
    rw [List.flatten_cons, List.flatten_nil, List.append_nil, hv1] at this
    rw [this]
    exact ⟨fun h => h.1, fun h => ⟨h, hvars c h⟩⟩
  · rename_i hcase
    have hall : ∀ c, c ∈ c0 ++ gs.flatten ↔ c ∈ r.conditions := by
      intro c
      rw [List.mem_append, h1, hv0, hv1]
      by_cases h : c.vars = [] <;> simp [h]
    have hcv : ∀ g ∈ gs, ∀ c ∈ g, c ∈ r.conditions ∧ c.vars ≠ [] := fun g hg c hc => (hv1 c).mp ((h1 c).mp (List.mem_flatten.mpr ⟨g, hg, hc⟩))
    have hnormal : (combine r.effect ((projectRules e r.effect gs k).map (·.effect) ++ c0)).Normal := by
      refine ⟨fun v hv => ?_, ht.head, fun c hc => ?_, fun h => ?_, fun h => ⟨?_, ?_, fun c hc v hv => ?_⟩, fun h => ?_⟩
      · obtain ⟨c, hc, hvc⟩ := ht.bound v hv
        obtain ⟨g, hg, hcg⟩ := List.mem_flatten.mp ((h1 c).mpr ((hv1 c).mpr ⟨hc, List.ne_nil_of_mem hvc⟩))
        obtain ⟨j, hj⟩ := projectRules_mem (e := e) (effect := r.effect) gs k g hg
        exact ⟨_, List.mem_append_left _ (List.mem_map.mpr ⟨_, hj, rfl⟩), (projectRule_vars he).mpr ⟨hv, c, hcg, hvc⟩⟩
      · rcases List.mem_append.mp hc with hc | hc
        · obtain ⟨x, hx, rfl⟩ := List.mem_map.mp hc
          obtain ⟨g, hg, j, rfl⟩ := mem_projectRules gs _ x hx
          exact projectRule_nodup he
        · rw [((hv0 c).mp hc).2]
          exact .nil
      · unfold combine at h
        simp only [] at h
        split at h <;> simp at h
      · unfold combine at h
        simp only [] at h
        split at h
        · rename_i h'
          exact h'
        · simp at h
      · show ((projectRules e r.effect gs k).map (·.effect) ++ c0).Pairwise _
        rw [List.pairwise_append]
        refine ⟨?_, ?_, fun x _ y hy v _ hv => ?_⟩
        · rw [List.pairwise_map]
          exact (projectRules_apart he gs k h3).imp fun hxy v hv hv' => hxy ⟨v, hv, hv'⟩
        · rw [List.pairwise_iff_getElem]
          intro i j hi hj _ v hv _
          rw [((hv0 _).mp (List.getElem_mem hi)).2] at hv
          simp at hv
        · rw [((hv0 y).mp hy).2] at hv
          simp at hv
      · rcases List.mem_append.mp hc with hc | hc
        · obtain ⟨x, hx, rfl⟩ := List.mem_map.mp hc
          obtain ⟨g, hg, j, rfl⟩ := mem_projectRules gs _ x hx
          exact ((projectRule_vars he).mp hv).1
        · rw [((hv0 c).mp hc).2] at hv
          simp at hv
      · unfold combine at h
        simp only [] at h
        split at h
        · simp at h
        · rename_i h'
          refine List.length_eq_one_iff.mp (show ((projectRules e r.effect gs k).map (·.effect) ++ c0).length = 1 from ?_)
          have hpos : 0 < ((projectRules e r.effect gs k).map (·.effect) ++ c0).length := by
            rw [List.length_append, List.length_map, projectRules_length]
            obtain ⟨c, hc⟩ := List.exists_mem_of_ne_nil _ hn
            rcases List.mem_append.mp ((hall c).mpr hc) with h | h
            · have := List.length_pos_of_mem h
              omega
            · obtain ⟨g, hg, _⟩ := List.mem_flatten.mp h
              have := List.length_pos_of_mem hg
              omega
          omega
    obtain ⟨rs, K', hs, hK, himpl⟩ := splitAll_ok he (effect := r.effect) (rs0 := [combine r.effect ((projectRules e r.effect gs k).map (·.effect) ++ c0)]) gs c0 k (k + gs.length) (Nat.le_refl _) h2 h3 (by
      rintro g hg c hc d hd ⟨v, _, hv⟩
      rw [((hv0 d).mp hd).2] at hv
      simp at hv) (fun g hg c hc => ⟨(hcv g hg c hc).2, ht.body c (hcv g hg c hc).1⟩) (by
      intro b hb
      rcases List.mem_cons.mp hb with rfl | hb
      · exact hnew _ (by simp)
      · exact hnew b (by simp [(hall b).mp hb])) ((Impl.single _ hnormal).congr (fun c => by
        show c ∈ (projectRules e r.effect gs k).map (·.effect) ++ c0 ↔ _
        rw [List.mem_append, List.mem_append, or_comm]) (fun _ h => h))
    rw [hs]
    refine ⟨_, _, rfl, by simp only []; omega, himpl.congr hall fun i hi => ?_⟩
    simp only []
    omega

/-- the rules `rs` implement several rules -/
structure ImplAll (name : Nat → P) (R : Nat → Prop) (clauses : List (Clause P V O)) (rs : List (Datalog.Rule P V O)) : Prop where
  complete : ∀ Q : GAtom P O → Prop, (∀ x ∈ rs, Closed Q x.effect x.conditions) → ∀ r ∈ clauses, Closed Q r.effect r.conditions
  sound : ∀ Q : GAtom P O → Prop, (∀ r ∈ clauses, Closed Q r.effect r.conditions) → ∃ Q' : GAtom P O → Prop, (∀ a, (∀ i, R i → a.pred ≠ name i) → (Q' a ↔ Q a)) ∧ ∀ x ∈ rs, Closed Q' x.effect x.conditions
  loose : ∀ Q : GAtom P O → Prop, (∀ r ∈ clauses, LClosed Q r.effect r.conditions) → ∃ Q' : GAtom P O → Prop, (∀ a, (∀ i, R i → a.pred ≠ name i) → (Q' a ↔ Q a)) ∧ ∀ x ∈ rs, LClosed Q' x.effect x.conditions
  atoms : ∃ m : Nat → Nat, ∀ x ∈ rs, ∀ a ∈ x.effect :: x.conditions, (∃ i, R i ∧ a.pred = name i ∧ a.args.length = m i) ∨ ∃ r ∈ clauses, a ∈ r.effect :: r.conditions
  normal : ∀ x ∈ rs, x.Normal
  joined : (∀ r ∈ clauses, ∀ c ∈ r.conditions, ∀ v ∈ c.vars, v ∈ r.effect.vars) → ∀ x ∈ rs, x.Joined

theorem splitRules_ok {e : Env P V O} (he : e.Ok) : ∀ (clauses : List (Clause P V O)) (k : Nat), (∀ r ∈ clauses, r.conditions ≠ [] ∧ Tidy r.effect r.conditions ∧ ∀ b ∈ r.effect :: r.conditions, ∀ i, b.pred ≠ e.name i) →
    ∃ rs, splitRules e clauses k = some rs ∧ ImplAll e.name (fun i => k ≤ i) clauses rs
  | [], k, _ => ⟨[], rfl, by simp, fun Q _ => ⟨Q, fun _ _ => Iff.rfl, by simp⟩, fun Q _ => ⟨Q, fun _ _ => Iff.rfl, by simp⟩, ⟨fun _ => 0, by simp⟩, by simp, by simp⟩
  | r :: clauses, k, h => by
    obtain ⟨h1, h2, h3⟩ := h r (by simp)
    obtain ⟨rs1, k', hs1, hk, i1⟩ := splitRule_ok he h1 h2 (k := k) fun b hb i _ => h3 b hb i
    obtain ⟨rs2, hs2, i2⟩ := splitRules_ok he clauses k' fun x hx => h x (by simp [hx])
    refine ⟨rs1 ++ rs2, by rw [splitRules, hs1]; simp only []; rw [hs2]; rfl, ?_⟩
    refine ⟨fun Q hQ x hx => ?_, fun Q hQ => ?_, fun Q hQ => ?_, ?_, fun x hx => ?_, fun hv x hx => ?_⟩
    · rcases List.mem_cons.mp hx with rfl | hx
      · exact i1.complete Q fun y hy => hQ y (List.mem_append_left _ hy)
      · exact i2.complete Q (fun y hy => hQ y (List.mem_append_right _ hy)) x hx
    · obtain ⟨Q1, hQ1, hc1⟩ := i1.sound Q (hQ r (by simp))
      obtain ⟨Q2, hQ2, hc2⟩ := i2.sound Q1 (fun x hx => (hQ x (by simp [hx])).congr fun a ha b hb => hQ1 b fun i _ => by rw [hb]; exact (h x (by simp [hx])).2.2 a ha i)
      refine ⟨Q2, fun a ha => (hQ2 a fun i hi => ha i (Nat.le_trans hk hi)).trans (hQ1 a fun i hi => ha i hi.1), fun x hx => ?_⟩
      rcases List.mem_append.mp hx with hx | hx
      · refine (hc1 x hx).congr fun a ha b hb => hQ2 b fun i hi => ?_
        rw [hb]
        obtain ⟨m, hm⟩ := i1.atoms
        rcases hm x hx a ha with ⟨j, hj, hj', _⟩ | h'
        · rw [hj']
          intro heq
          have := he.name _ _ heq
          omega
        · exact h3 a h' i
      · exact hc2 x hx
    · obtain ⟨Q1, hQ1, hc1⟩ := i1.loose Q (hQ r (by simp))
      obtain ⟨Q2, hQ2, hc2⟩ := i2.loose Q1 (fun x hx => (hQ x (by simp [hx])).congr fun a ha b hb => hQ1 b fun i _ => by rw [hb]; exact (h x (by simp [hx])).2.2 a ha i)
      refine ⟨Q2, fun a ha => (hQ2 a fun i hi => ha i (Nat.le_trans hk hi)).trans (hQ1 a fun i hi => ha i hi.1), fun x hx => ?_⟩
      rcases List.mem_append.mp hx with hx | hx
      · refine (hc1 x hx).congr fun a ha b hb => hQ2 b fun i hi => ?_
        rw [hb]
        obtain ⟨m, hm⟩ := i1.atoms
        rcases hm x hx a ha with ⟨j, hj, hj', _⟩ | h'
        · rw [hj']
          intro heq
          have := he.name _ _ heq
          omega
        · exact h3 a h' i
      · exact hc2 x hx
    · obtain ⟨m1, hm1⟩ := i1.atoms
      obtain ⟨m2, hm2⟩ := i2.atoms
      refine ⟨fun i => if i < k' then m1 i else m2 i, fun x hx a ha => ?_⟩
      rcases List.mem_append.mp hx with hx | hx
      · rcases hm1 x hx a ha with ⟨j, hj, hj', hm⟩ | h'
        · exact .inl ⟨j, hj.1, hj', by beta_reduce; rw [if_pos hj.2]; exact hm⟩
        · exact .inr ⟨r, by simp, h'⟩
      · rcases hm2 x hx a ha with ⟨j, hj, hj', hm⟩ | ⟨r', hr', h'⟩
        · exact .inl ⟨j, Nat.le_trans hk hj, hj', by beta_reduce; rw [if_neg (by omega)]; exact hm⟩
        · exact .inr ⟨r', by simp [hr'], h'⟩
    · rcases List.mem_append.mp hx with hx | hx
      · exact i1.normal x hx
      · exact i2.normal x hx
    · rcases List.mem_append.mp hx with hx | hx
      · exact i1.joined (hv r (by simp)) x hx
      · exact i2.joined (fun r' hr' => hv r' (by simp [hr'])) x hx

end Verif.PrologProgram
