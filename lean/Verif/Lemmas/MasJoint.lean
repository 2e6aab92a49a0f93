import Verif.Lemmas.MasAlgorithm
import Verif.Spec.Bisimulation

/-
Joint paths of the factors: a path in all factors with the same labels corresponds to a plan, if shrinking is by bisimulation.
-/
namespace Verif.Mas
open Verif.AdaptiveQueue

/-- there is a path of cost `k` in all factors with common labels, from the states `σ` to goal states -/
inductive JGoal (F : FTS) : (Nat → Nat) → Nat → Prop where
  | goal (σ) : (∀ j f, F.factor j = some f → f.ts.goals[σ j]? = some true) → JGoal F σ 0
  | step (σ σ' l c k) : F.labels.cost l = some c → (∀ j f, F.factor j = some f → Tr f.ts.infos l (σ j) (σ' j)) → JGoal F σ' k → JGoal F σ (c + k)

/-- the factors map the state to the states `σ` -/
def Proj (F : FTS) (s : State) (σ : Nat → Nat) : Prop := ∀ j f, F.factor j = some f → f.repr.value s = some (some (σ j))

/-- joint paths are at least as expensive as plans -/
def Faithful (t : Task) (F : FTS) : Prop := ∀ s σ k, t.ValidState s → Proj F s σ → JGoal F σ k → ∃ π, t.SolvesFrom s π ∧ t.planCost π ≤ k

/-- the paths of `F'` can be translated to `F` -/
theorem Faithful.of {t : Task} {F F' : FTS} (h : Faithful t F) (hsim : ∀ s σ', t.ValidState s → Proj F' s σ' → ∃ σ, Proj F s σ ∧ ∀ k, JGoal F' σ' k → JGoal F σ k) : Faithful t F' := by
  intro s σ' k hs hp hj
  obtain ⟨σ, h1, h2⟩ := hsim s σ' hs hp
  exact h s σ k hs h1 (h2 k hj)

/-! ### abstractions -/

/-- transitions of a state can be simulated by all states with the same abstract state -/
def Lifts (T : TS) (m : List (Option Nat)) : Prop := ∀ a a0 x : Nat, m[a]? = some (some x) → m[a0]? = some (some x) →
  (T.goals[a0]? = some true → T.goals[a]? = some true) ∧ ∀ l b0 y : Nat, Tr T.infos l a0 b0 → m[b0]? = some (some y) → ∃ b : Nat, Tr T.infos l a b ∧ m[b]? = some (some y)

theorem factor_set_self {F : FTS} {i : Nat} {f g : Factor} (h : F.factor i = some f) : FTS.factor { F with factors := F.factors.set i (some g) } i = some g := by
  unfold FTS.factor at h ⊢
  have hlt : i < F.factors.length := by
    by_contra hn
    rw [List.getElem?_eq_none (by omega)] at h
    simp at h
  simp only
  rw [List.getElem?_set_self hlt]
  rfl

theorem factor_set_other {F : FTS} {i j : Nat} {g : Option Factor} (h : j ≠ i) : FTS.factor { F with factors := F.factors.set i g } j = F.factor j := by
  unfold FTS.factor
  simp only
  rw [List.getElem?_set_ne (fun e => h e.symm)]

/-- what the abstraction of a factor changes -/
theorem applyAbstraction_factor {t : Task} {U : Bool} {lab : Nat → Nat} {L : Labels} {H : StdHeap Nat} {f f' : Factor} (h : FInv t U lab L f) {rel : List (List Nat)} {ci cg : Bool} (hne : ∀ c ∈ rel, c ≠ [])
    (hf : f.applyAbstraction H rel ci cg = some f') : f' = f ∨ ∃ m T, MapOf f.ts.size rel m ∧ f.ts.applyAbstraction rel m = some T ∧ f'.ts = T ∧ abstractDistances H T rel ci cg f.dist = some f'.dist ∧
      ∀ (s : State) (a' : Nat), t.ValidState s → f'.repr.value s = some (some a') → ∃ a, f.repr.value s = some (some a) ∧ m[a]? = some (some a') := by
  unfold Factor.applyAbstraction at hf
  split at hf
  · simp only [Option.some.injEq] at hf
    exact Or.inl hf.symm
  · right
    cases hm0 : abstractionMapping f.ts.size rel with
    | none => rw [hm0] at hf; simp at hf
    | some m =>
      rw [hm0] at hf
      simp only at hf
      have hm := abstractionMapping_spec hm0
      cases hT0 : f.ts.applyAbstraction rel m with
      | none => rw [hT0] at hf; simp at hf
      | some T =>
        rw [hT0] at hf
        simp only at hf
        cases hd0 : abstractDistances H T rel ci cg f.dist with
        | none => rw [hd0] at hf; simp at hf
        | some d =>
          cases hr0 : f.repr.applyAbstraction m with
          | none => rw [hd0, hr0] at hf; simp at hf
          | some r =>
            rw [hd0, hr0] at hf
            simp only [Option.some.injEq] at hf
            subst hf
            obtain ⟨k1, k2, k3⟩ := applyAbstraction_repr h.repr (h.dom ▸ hm) hne hr0
            refine ⟨m, T, hm, hT0, rfl, hd0, fun s a' hs hv => ?_⟩
            obtain ⟨o, h1, _⟩ := h.repr.value hs
            obtain ⟨o', h2, h3⟩ := k3 s o h1
            rw [hv] at h2
            simp only [Option.some.injEq] at h2
            subst h2
            cases o with
            | none => simp [mapEntry] at h3
            | some a => exact ⟨a, h1, by simpa [mapEntry] using h3⟩

theorem Faithful.abstract {t : Task} {U : Bool} {H : StdHeap Nat} {F F' : FTS} (h : Faithful t F) (hI : FtsInv t U F) {i : Nat} {rel : List (List Nat)} (hne : ∀ c ∈ rel, c ≠ [])
    (hlift : ∀ f, F.factor i = some f → ∀ m, MapOf f.ts.size rel m → Lifts f.ts m) (hF : F.applyAbstraction H i rel = some F') : Faithful t F' := by
  obtain ⟨lab, _, h2⟩ := hI
  unfold FTS.applyAbstraction at hF
  cases hf : F.factor i with
  | none => rw [hf] at hF; simp at hF
  | some f =>
    rw [hf] at hF
    simp only at hF
    cases hf' : f.applyAbstraction H rel F.ci F.cg with
    | none => rw [hf'] at hF; simp at hF
    | some f' =>
      rw [hf'] at hF
      simp only [Option.some.injEq] at hF
      have hfi := (h2 i f hf).1
      rcases applyAbstraction_factor hfi hne hf' with rfl | ⟨m, T, hm, hT, hT', _, hback⟩
      · have : F' = F := by
          subst hF
          have : F.factors.set i (some f') = F.factors := by
            apply List.ext_getElem?
            intro j
            by_cases e : i = j
            · subst e
              unfold FTS.factor at hf
              have hlt : i < F.factors.length := by
                by_contra hn
                rw [List.getElem?_eq_none (by omega)] at hf
                simp at hf
              rw [List.getElem?_set_self hlt]
              exact (Option.join_eq_some_iff.mp hf).symm
            · rw [List.getElem?_set_ne e]
          rw [this]
        rw [this]
        exact h
      · obtain ⟨_, _, htr, hgoal, _, _⟩ := applyAbstraction_spec hm hfi.ok hT
        have hl := hlift f hf m hm
        have hself : F'.factor i = some f' := by subst hF; exact factor_set_self hf
        have hother : ∀ j, j ≠ i → F'.factor j = F.factor j := by intro j hj; subst hF; exact factor_set_other hj
        have hlab : F'.labels = F.labels := by subst hF; rfl
        have lift : ∀ σ' k, JGoal F' σ' k → ∀ a, m[a]? = some (some (σ' i)) → JGoal F (fun j => if j = i then a else σ' j) k := by
          intro σ' k hj
          induction hj with
          | goal σ' hg =>
            intro a ha
            refine .goal _ (fun j g hg' => ?_)
            by_cases e : j = i
            · subst e
              rw [hf] at hg'
              simp only [Option.some.injEq] at hg'
              subst hg'
              simp only [if_true]
              have := hg j f' hself
              rw [hT'] at this
              obtain ⟨a0, h3, h4⟩ := (hgoal _).mp this
              exact (hl a a0 _ ha h4).1 h3
            · simp only [if_neg e]
              exact hg j g (by rw [hother j e]; exact hg')
          | step σ' σ'' l c k hc ht _ ih =>
            intro a ha
            have := ht i f' hself
            rw [hT'] at this
            obtain ⟨a0, b0, h3, h4, h5⟩ := (htr _ _ _).mp this
            obtain ⟨b, h6, h7⟩ := (hl a a0 _ ha h4).2 l b0 _ h3 h5
            refine .step _ _ l c k (by rw [← hlab]; exact hc) (fun j g hg' => ?_) (ih b h7)
            by_cases e : j = i
            · subst e
              rw [hf] at hg'
              simp only [Option.some.injEq] at hg'
              subst hg'
              simp only [if_true]
              exact h6
            · simp only [if_neg e]
              exact ht j g (by rw [hother j e]; exact hg')
        refine h.of (fun s σ' hs hp => ?_)
        obtain ⟨a, h3, h4⟩ := hback s _ hs (hp i f' hself)
        refine ⟨fun j => if j = i then a else σ' j, fun j g hg' => ?_, fun k hk => lift σ' k hk a h4⟩
        by_cases e : j = i
        · subst e
          rw [hf] at hg'
          simp only [Option.some.injEq] at hg'
          subst hg'
          simp only [if_true]
          exact h3
        · simp only [if_neg e]
          exact hp j g (by rw [hother j e]; exact hg')

theorem lifts_singletons {T : TS} {n : Nat} {l : List Nat} {m : List (Option Nat)} (hm : MapOf n (l.map (fun s => [s])) m) : Lifts T m := by
  intro a a0 x ha ha0
  have : a = a0 := by
    obtain ⟨c, h1, h2⟩ := (hm.2 a x).mp ha
    obtain ⟨c', h3, h4⟩ := (hm.2 a0 x).mp ha0
    rw [h1] at h3
    simp only [Option.some.injEq] at h3
    subst h3
    obtain ⟨s, _, rfl⟩ := List.mem_map.mp (List.mem_of_getElem? h1)
    simp only [List.mem_singleton] at h2 h4
    rw [h2, h4]
  subst this
  exact ⟨id, fun l b0 y h1 h2 => ⟨b0, h1, h2⟩⟩

/-- pruning -/
theorem Faithful.prune {t : Task} {U U' I : Bool} {H : StdHeap Nat} {F F' : FTS} (h : Faithful t F) (hI : FtsInv t U F) {i : Nat} (hF : F.pruneStep H U' I i = some F') : Faithful t F' := by
  unfold FTS.pruneStep at hF
  split at hF
  · simp at hF
  · split at hF
    · simp at hF
    · refine h.abstract hI (fun c hc => ?_) (fun g _ m hm => lifts_singletons hm) hF
      obtain ⟨x, _, rfl⟩ := List.mem_map.mp hc
      simp

/-! ### merging -/

theorem Faithful.merge {t : Task} {U : Bool} {O : HashOrder} {H : StdHeap Nat} {F F' : FTS} (h : Faithful t F) (hI : FtsInv t U F) {i j : Nat} (hF : F.merge O H i j = some F') : Faithful t F' := by
  obtain ⟨lab, h1, h2⟩ := hI
  unfold FTS.merge at hF
  split at hF
  · simp at hF
  · rename_i hij
    cases hf : F.factor i with
    | none => rw [hf] at hF; simp at hF
    | some f =>
      cases hg : F.factor j with
      | none => rw [hf, hg] at hF; simp at hF
      | some g =>
        rw [hf, hg] at hF
        simp only at hF
        cases hm : mergeFactors O H F.labels F.ci F.cg f g with
        | none => rw [hm] at hF; simp at hF
        | some x =>
          rw [hm] at hF
          simp only [Option.some.injEq] at hF
          subst hF
          have hfi := (h2 i f hf).1
          have hgi := (h2 j g hg).1
          unfold mergeFactors at hm
          cases hT0 : f.ts.merge O F.labels g.ts with
          | none => rw [hT0] at hm; simp at hm
          | some T =>
            rw [hT0] at hm
            simp only at hm
            obtain ⟨hT, hsize, htr, hgoal, _, _⟩ := merge_spec h1.ok hfi.ok hgi.ok hT0
            cases hd0 : computeBoth H T F.ci F.cg with
            | none => rw [hd0] at hm; simp at hm
            | some d =>
              rw [hd0] at hm
              simp only [Option.some.injEq] at hm
              subst hm
              obtain ⟨k1, k2, k3⟩ := newMerge_ok hfi.repr hgi.repr
              have hnew : FTS.factor { F with factors := ((F.factors.set i none).set j none) ++ [some ⟨T, f.repr.newMerge g.repr, d⟩] } F.factors.length = some ⟨T, f.repr.newMerge g.repr, d⟩ := by
                unfold FTS.factor
                simp only
                rw [List.getElem?_append_right (by simp)]
                simp
              have hold : ∀ p, p ≠ i → p ≠ j → ∀ y, F.factor p = some y → FTS.factor { F with factors := ((F.factors.set i none).set j none) ++ [some ⟨T, f.repr.newMerge g.repr, d⟩] } p = some y := by
                intro p hpi hpj y hy
                have hlt : p < F.factors.length := by
                  by_contra hn
                  unfold FTS.factor at hy
                  rw [List.getElem?_eq_none (by omega)] at hy
                  simp at hy
                unfold FTS.factor at hy ⊢
                simp only
                rw [List.getElem?_append_left (by simpa using hlt), List.getElem?_set_ne (fun e => hpj e.symm), List.getElem?_set_ne (fun e => hpi e.symm)]
                exact hy
              refine h.of (fun s σ' hs hp => ?_)
              have dm : ∀ a b, b < g.ts.size → (a * g.ts.size + b) / g.ts.size = a ∧ (a * g.ts.size + b) % g.ts.size = b := by
                intro a b hb
                refine ⟨?_, ?_⟩
                · rw [Nat.mul_comm, Nat.mul_add_div (by omega), Nat.div_eq_of_lt hb, Nat.add_zero]
                · rw [Nat.mul_comm, Nat.mul_add_mod, Nat.mod_eq_of_lt hb]
              refine ⟨fun p => if p = i then σ' F.factors.length / g.ts.size else if p = j then σ' F.factors.length % g.ts.size else σ' p, fun p y hy => ?_, fun k hk => ?_⟩
              · have hval := hp _ _ hnew
                obtain ⟨o1, e1, _⟩ := hfi.repr.value hs
                obtain ⟨o2, e2, e3⟩ := hgi.repr.value hs
                rw [k3 s hs o1 o2 e1 e2] at hval
                cases o1 with
                | none => simp at hval
                | some a1 =>
                  cases o2 with
                  | none => simp at hval
                  | some a2 =>
                    simp only [Option.some.injEq] at hval
                    have hlt := e3 a2 rfl
                    rw [hgi.dom] at hval hlt
                    obtain ⟨d1, d2⟩ := dm a1 a2 hlt
                    by_cases hpi : p = i
                    · subst hpi
                      rw [hf] at hy
                      simp only [Option.some.injEq] at hy
                      subst hy
                      simp only [if_true]
                      rw [← hval, d1]
                      exact e1
                    · by_cases hpj : p = j
                      · subst hpj
                        rw [hg] at hy
                        simp only [Option.some.injEq] at hy
                        subst hy
                        simp only [if_neg hpi, if_true]
                        rw [← hval, d2]
                        exact e2
                      · simp only [if_neg hpi, if_neg hpj]
                        exact hp p y (hold p hpi hpj y hy)
              · clear hp
                induction hk with
                | goal σ' hgo =>
                  refine .goal _ (fun p y hy => ?_)
                  have hq := hgo _ _ hnew
                  simp only at hq
                  have hlt : σ' F.factors.length < f.ts.size * g.ts.size := by
                    rw [← hsize]
                    exact (List.getElem?_eq_some_iff.mp hq).1
                  have hpos : 0 < g.ts.size := by
                    rcases Nat.eq_zero_or_pos g.ts.size with h0 | h0
                    · rw [h0] at hlt; simp at hlt
                    · exact h0
                  have hdm := Nat.div_add_mod' (σ' F.factors.length) g.ts.size
                  rw [← hdm] at hq
                  have hq' := (hgoal _ _ (Nat.mod_lt _ hpos)).mp hq
                  by_cases hpi : p = i
                  · subst hpi
                    rw [hf] at hy
                    simp only [Option.some.injEq] at hy
                    subst hy
                    simp only [if_true]
                    exact hq'.1
                  · by_cases hpj : p = j
                    · subst hpj
                      rw [hg] at hy
                      simp only [Option.some.injEq] at hy
                      subst hy
                      simp only [if_neg hpi, if_true]
                      exact hq'.2
                    · simp only [if_neg hpi, if_neg hpj]
                      exact hgo p y (hold p hpi hpj y hy)
                | step σ' σ'' l c k hc ht _ ih =>
                  refine .step _ _ l c k hc (fun p y hy => ?_) ih
                  obtain ⟨a1, b1, a2, b2, q1, q2, q3, q4⟩ := (htr _ _ _).mp (ht _ _ hnew)
                  obtain ⟨ii, hii, _, hq⟩ := id q2
                  obtain ⟨r1, r2⟩ := hgi.ok.range.trans ii hii _ hq
                  obtain ⟨d1, d2⟩ := dm a1 a2 r1
                  obtain ⟨d3, d4⟩ := dm b1 b2 r2
                  by_cases hpi : p = i
                  · subst hpi
                    rw [hf] at hy
                    simp only [Option.some.injEq] at hy
                    subst hy
                    simp only [if_true]
                    rw [q3, q4, d1, d3]
                    exact q1
                  · by_cases hpj : p = j
                    · subst hpj
                      rw [hg] at hy
                      simp only [Option.some.injEq] at hy
                      subst hy
                      simp only [if_neg hpi, if_true]
                      rw [q3, q4, d2, d4]
                      exact q2
                    · simp only [if_neg hpi, if_neg hpj]
                      exact ht p y (hold p hpi hpj y hy)

end Verif.Mas
