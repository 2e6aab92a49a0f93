import Verif.Lemmas.LandmarkStatus
import Mathlib.Data.List.Induction

/- The invariant of the tracking of landmarks over all sequences of reports. -/
namespace Verif.Landmarks
variable {t : Task} {g : Graph}

/-- the landmark is future in the initial state, and does not become true on the run -/
def FutureAlong (t : Task) (g : Graph) (i : Nat) (r : List (Nat × State)) : Prop :=
  (¬g.L i t.init ∨ ∃ n, g[i]? = some n ∧ ∃ q ∈ n.parents, ¬g.L q.1 t.init) ∧ NotAdded (g.L i) t.init r

structure Inv (t : Task) (g : Graph) (a b c : Bool) (es : List Event) (st : Status) : Prop where
  len : ∀ s, (st.past s).length = g.length ∧ (st.future s).length = g.length
  past : ∀ s i, i < g.length → ((st.past s)[i]? = some false ↔ ∃ r, Observed t es r s ∧ Never (g.L i) t.init r)
  sound : ∀ s i, i < g.length → (st.future s)[i]? = some true → MustAchieve t s (g.L i)
  complete : ∀ s i, i < g.length → (∃ r, Observed t es r s ∧ FutureAlong t g i r) → (st.future s)[i]? = some true
  exact : a = false → b = false → c = false → ∀ s i, i < g.length → (st.future s)[i]? = some true → ∃ r, Observed t es r s ∧ FutureAlong t g i r

theorem never_futureAlong {i : Nat} {r : List (Nat × State)} (h : Never (g.L i) t.init r) : FutureAlong t g i r :=
  ⟨Or.inl fun h' => h 0 (holdsAt_zero.mpr h'), fun k hk => h _ hk.1⟩

theorem Inv.pastTrue {a b c : Bool} {es : List Event} {st : Status} (h : Inv t g a b c es st) {s : State} {i : Nat} (hL : g.L i s) : (st.past s)[i]? = some true := by
  have hlt : i < g.length := by
    obtain ⟨n, hn, _⟩ := hL
    exact (List.getElem?_eq_some_iff.mp hn).1
  rcases bit_cases (by rw [(h.len s).1]; exact hlt : i < (st.past s).length) with e | e
  · exact e
  · obtain ⟨r, h1, h2⟩ := (h.past s i hlt).mp e
    exact absurd ((holdsAt_last h1.1).mpr hL) (h2 _)

theorem inv_new (t : Task) (g : Graph) (a b c : Bool) : Inv t g a b c [] (Status.new g) := by
  have key : ∀ r s, ¬Observed t [] r s := fun r s h => by simpa using h.2
  refine ⟨fun s => by simp [Status.new], fun s i hi => ?_, fun s i hi h => ?_, fun s i hi h => ?_, fun _ _ _ s i hi h => ?_⟩
  · constructor
    · simp [Status.new, List.getElem?_replicate, hi]
    · rintro ⟨r, h, _⟩; exact absurd h (key _ _)
  · simp [Status.new, List.getElem?_replicate, hi] at h
  · obtain ⟨r, h, _⟩ := h; exact absurd h (key _ _)
  · simp [Status.new, List.getElem?_replicate, hi] at h

theorem mustAchieve_of_false (hwf : t.WF) {s : State} (hs : t.ValidState s) {L : State → Prop} (hL : ¬L s) (h : ∀ r, t.GoalRun s r → ∃ k, HoldsAt L (runStates s r) k) : MustAchieve t s L := by
  intro r hr
  obtain ⟨k, hk⟩ := h r hr
  obtain ⟨j, _, _, h3⟩ := exists_added (Nat.zero_le k) (fun h => hL (holdsAt_zero.mp h)) hk
  exact ⟨j, h3⟩

theorem inv_initial (hwf : t.WF) (hg : g.Valid t) {a b c : Bool} {es : List Event} {st : Status} (h : Inv t g a b c es st) :
    ∃ st', notify t.init (Manager.new g a b c) st .initial = some st' ∧ Inv t g a b c (es ++ [.initial]) st' := by
  obtain ⟨p', f', h1, h2, h3, h4⟩ := initial_pass hg.ok hwf.init (h.len t.init).1 (h.len t.init).2 (fun i hL => h.pastTrue hL)
  refine ⟨st.write t.init p' f', ?_, ?_⟩
  · unfold notify progressInitialState
    have : (Manager.new g a b c).graph = g := rfl
    simp only [this, h1]
  · have hobs : ∀ {r s}, Observed t (es ++ [.initial]) r s → Observed t es r s ∨ (r = [] ∧ s = t.init) := by
      intro r s ho
      rcases ho.inv with h' | ⟨_, h'⟩ | ⟨_, _, _, h', _⟩
      · exact Or.inl h'
      · exact Or.inr h'
      · cases h'
    refine ⟨fun s => ?_, fun s i hi => ?_, fun s i hi hf => ?_, fun s i hi hf => ?_, fun ha hb hc s i hi hf => ?_⟩
    · unfold Status.write
      by_cases he : s = t.init
      · simp [he, h2, h3]
      · simp [he, h.len s]
    · by_cases he : s = t.init
      · subst he
        simp only [Status.write, if_true]
        rw [(h4 i hi).1, h.past _ i hi]
        constructor
        · rintro (⟨r, h5, h6⟩ | h5)
          · exact ⟨r, h5.mono _, h6⟩
          · exact ⟨[], observed_initial t es, never_nil.mpr h5⟩
        · rintro ⟨r, h5, h6⟩
          rcases hobs h5 with h5 | ⟨rfl, _⟩
          · exact Or.inl ⟨r, h5, h6⟩
          · exact Or.inr (never_nil.mp h6)
      · simp only [Status.write, if_neg he]
        rw [h.past s i hi]
        constructor
        · rintro ⟨r, h5, h6⟩; exact ⟨r, h5.mono _, h6⟩
        · rintro ⟨r, h5, h6⟩
          rcases hobs h5 with h5 | ⟨_, h5⟩
          · exact ⟨r, h5, h6⟩
          · exact absurd h5 he
    · by_cases he : s = t.init
      · subst he
        simp only [Status.write, if_true] at hf
        rcases (h4 i hi).2.mp hf with h5 | h5 | h5
        · exact h.sound _ i hi h5
        · refine mustAchieve_of_false hwf hwf.init h5 ?_
          rw [L_eq (List.getElem?_eq_getElem hi)]
          exact hg.landmark _ (List.getElem_mem hi)
        · obtain ⟨n, hn, ⟨A, ty⟩, hq, hA⟩ := h5
          have hnm := List.mem_of_getElem? hn
          obtain ⟨na, hna, hord⟩ := hg.parents n hnm A ty hq
          simp only [L_eq hna] at hA
          rw [L_eq hn]
          by_cases hB : n.landmark.Holds t.init
          · intro r hr
            have hfirst : FirstAt n.landmark.Holds (runStates t.init r) 0 := ⟨holdsAt_zero.mpr hB, fun j hj => by omega⟩
            cases ty with
            | natural =>
              obtain ⟨j, hj, _⟩ := hord r hr 0 hfirst
              omega
            | greedyNecessary =>
              obtain ⟨j, hj, _⟩ := hord r hr 0 hfirst
              omega
            | necessary =>
              obtain ⟨j, hj, _⟩ := hord r hr 0 hfirst.added
              omega
            | reasonable =>
              obtain ⟨k, hk⟩ := hg.landmark na (List.mem_of_getElem? hna) r hr
              obtain ⟨j, _, hj⟩ := exists_first hk
              obtain ⟨m, hm1, hm2⟩ := hord r hr 0 j hfirst.added hj (Nat.zero_le _)
              have hj0 : j ≠ 0 := by
                rintro rfl
                exact hA (holdsAt_zero.mp hj.1)
              obtain ⟨m', rfl⟩ : ∃ m', m = m' + 1 := ⟨m - 1, by omega⟩
              exact ⟨m', hm2⟩
          · exact mustAchieve_of_false hwf hwf.init hB (hg.landmark n hnm)
      · simp only [Status.write, if_neg he] at hf
        exact h.sound s i hi hf
    · obtain ⟨r, h5, h6⟩ := hf
      by_cases he : s = t.init
      · subst he
        simp only [Status.write, if_true]
        rw [(h4 i hi).2]
        rcases hobs h5 with h5 | ⟨rfl, _⟩
        · exact Or.inl (h.complete _ i hi ⟨r, h5, h6⟩)
        · exact Or.inr h6.1
      · simp only [Status.write, if_neg he]
        rcases hobs h5 with h5 | ⟨_, h5⟩
        · exact h.complete s i hi ⟨r, h5, h6⟩
        · exact absurd h5 he
    · by_cases he : s = t.init
      · subst he
        simp only [Status.write, if_true] at hf
        rcases (h4 i hi).2.mp hf with h5 | h5
        · obtain ⟨r, h6, h7⟩ := h.exact ha hb hc _ i hi h5
          exact ⟨r, h6.mono _, h7⟩
        · exact ⟨[], observed_initial t es, h5, notAdded_nil⟩
      · simp only [Status.write, if_neg he] at hf
        obtain ⟨r, h6, h7⟩ := h.exact ha hb hc _ i hi hf
        exact ⟨r, h6.mono _, h7⟩

theorem goalRun_append {s s' : State} {r r' : List (Nat × State)} (h : t.Run s r s') (h' : t.GoalRun s' r') : t.GoalRun s (r ++ r') := by
  obtain ⟨u, h1, h2⟩ := h'
  exact ⟨u, h.append h1, h2⟩

/-- A formula that must be achieved in the parent must be achieved in the child, unless the step makes it true. -/
theorem mustAchieve_step {L : State → Prop} {p s : State} {i : Nat} (hst : t.Step p i s) (h : MustAchieve t p L) (hL : ¬L s ∨ L p) : MustAchieve t s L := by
  intro r hr
  have hrun : t.Run p [(i, s)] s := .cons _ _ _ _ _ hst (.nil _)
  obtain ⟨k, hk⟩ := h _ (goalRun_append hrun hr)
  cases k with
  | zero =>
    exfalso
    obtain ⟨h1, h2⟩ := hk
    have h3 := h2 0 rfl
    rw [holdsAt_zero] at h3
    have h4 : L s := by simpa [HoldsAt, runStates] using h1
    tauto
  | succ k =>
    refine ⟨k, ?_⟩
    have := (addedAt_right (L := L) (r' := r) hrun k).mp (by
      rw [show [(i, s)].length + (k + 1) = k + 1 + 1 by simp; omega]
      exact hk)
    exact this

theorem inv_transition (hwf : t.WF) (hg : g.Valid t) {a b c : Bool} {es : List Event} {st : Status} (h : Inv t g a b c es st) {p s : State} {o : Nat}
    (hle : Event.Legal t (.transition p o s)) : ∃ st', notify t.init (Manager.new g a b c) st (.transition p o s) = some st' ∧ Inv t g a b c (es ++ [.transition p o s]) st' := by
  obtain ⟨hvp, hvs, hst⟩ := hle
  by_cases hps : s = p
  · subst hps
    refine ⟨st, by simp [notify, progress], ?_⟩
    have hobs : ∀ {r u}, Observed t (es ++ [.transition s o s]) r u → Observed t es r u ∨ ∃ r0, r = r0 ++ [(o, s)] ∧ u = s ∧ Observed t es r0 s := by
      intro r u ho
      rcases ho.inv with h' | ⟨h', _⟩ | ⟨r0, p, i, h', hr, _, ho'⟩
      · exact Or.inl h'
      · cases h'
      · simp only [Event.transition.injEq] at h'
        obtain ⟨rfl, rfl, rfl⟩ := h'
        exact Or.inr ⟨r0, hr, rfl, ho'⟩
    refine ⟨h.len, fun u i hi => ?_, h.sound, fun u i hi hf => ?_, fun ha hb hc u i hi hf => ?_⟩
    · rw [h.past u i hi]
      constructor
      · rintro ⟨r, h5, h6⟩; exact ⟨r, h5.mono _, h6⟩
      · rintro ⟨r, h5, h6⟩
        rcases hobs h5 with h5 | ⟨r0, rfl, rfl, h5⟩
        · exact ⟨r, h5, h6⟩
        · exact ⟨r0, h5, ((never_snoc h5.1).mp h6).1⟩
    · obtain ⟨r, h5, h6⟩ := hf
      rcases hobs h5 with h5 | ⟨r0, rfl, rfl, h5⟩
      · exact h.complete u i hi ⟨r, h5, h6⟩
      · exact h.complete u i hi ⟨r0, h5, h6.1, ((notAdded_snoc h5.1).mp h6.2).1⟩
    · obtain ⟨r, h6, h7⟩ := h.exact ha hb hc _ i hi hf
      exact ⟨r, h6.mono _, h7⟩
  · obtain ⟨p', f', h1, hsp⟩ := progress_spec hg.ok (a := a) (b := b) (c := c) (st := st) hps hvp hvs h.len (fun i hL => h.pastTrue hL)
    refine ⟨_, h1, ?_⟩
    have hobs : ∀ {r u}, Observed t (es ++ [.transition p o s]) r u → Observed t es r u ∨ ∃ r0, r = r0 ++ [(o, s)] ∧ u = s ∧ Observed t es r0 p := by
      intro r u ho
      rcases ho.inv with h' | ⟨h', _⟩ | ⟨r0, p, i, h', hr, _, ho'⟩
      · exact Or.inl h'
      · cases h'
      · simp only [Event.transition.injEq] at h'
        obtain ⟨rfl, rfl, rfl⟩ := h'
        exact Or.inr ⟨r0, hr, rfl, ho'⟩
    have hpf : ∀ i, i < g.length → (st.past p)[i]? = some false → (st.future p)[i]? = some true := by
      intro i hi hp
      obtain ⟨r, h5, h6⟩ := (h.past p i hi).mp hp
      exact h.complete p i hi ⟨r, h5, never_futureAlong h6⟩
    have hpast : ∀ i, i < g.length → (p'[i]? = some false ↔ ∃ r, Observed t (es ++ [.transition p o s]) r s ∧ Never (g.L i) t.init r) := by
      intro i hi
      rw [hsp.past i hi, h.past s i hi]
      constructor
      · rintro (⟨r, h5, h6⟩ | ⟨h5, h6, h7⟩)
        · exact ⟨r, h5.mono _, h6⟩
        · obtain ⟨r, h8, h9⟩ := (h.past p i hi).mp h6
          exact ⟨_, h8.step hst, (never_snoc h8.1).mpr ⟨h9, h7⟩⟩
      · rintro ⟨r, h5, h6⟩
        rcases hobs h5 with h5 | ⟨r0, rfl, _, h5⟩
        · exact Or.inl ⟨r, h5, h6⟩
        · obtain ⟨h7, h8⟩ := (never_snoc h5.1).mp h6
          have := (h.past p i hi).mpr ⟨r0, h5, h7⟩
          exact Or.inr ⟨hpf i hi this, this, h8⟩
    refine ⟨fun u => ?_, fun u i hi => ?_, fun u i hi hf => ?_, fun u i hi hf => ?_, fun ha hb hc u i hi hf => ?_⟩
    · unfold Status.write
      by_cases he : u = s
      · simp [he, hsp.lenP, hsp.lenF]
      · simp [he, h.len u]
    · by_cases he : u = s
      · subst he
        simp only [Status.write, if_true]
        exact hpast i hi
      · simp only [Status.write, if_neg he]
        rw [h.past u i hi]
        constructor
        · rintro ⟨r, h5, h6⟩; exact ⟨r, h5.mono _, h6⟩
        · rintro ⟨r, h5, h6⟩
          rcases hobs h5 with h5 | ⟨_, _, h5, _⟩
          · exact ⟨r, h5, h6⟩
          · exact absurd h5 he
    · by_cases he : u = s
      · subst he
        simp only [Status.write, if_true] at hf
        rcases (hsp.future i hi).mp hf with h5 | ⟨h5, h6⟩ | ⟨_, ⟨n, hn, h5⟩, h6⟩ | ⟨_, n, hn, y, hy, h5, h6⟩ | ⟨_, n, hn, y, hy, h5⟩
        · exact h.sound _ i hi h5
        · exact mustAchieve_step hst (h.sound p i hi h5) h6
        · refine mustAchieve_of_false hwf hvs h6 ?_
          rintro r ⟨v, hr, hv⟩
          refine ⟨r.length, (holdsAt_last hr).mpr ?_⟩
          rw [L_eq hn]
          exact hg.goal n (List.mem_of_getElem? hn) h5 v (run_valid hwf hvs hr).1 hv
        · obtain ⟨nb, hnb, hord⟩ := hg.children n (List.mem_of_getElem? hn) y _ hy
          have hylt : y < g.length := (List.getElem?_eq_some_iff.mp hnb).1
          obtain ⟨r0, g1, g2⟩ := (hpast y hylt).mp h5
          intro r hr
          have hplan := goalRun_append g1.1 hr
          obtain ⟨k, hk⟩ := hg.landmark nb (List.mem_of_getElem? hnb) _ hplan
          obtain ⟨j, _, hj⟩ := exists_first hk
          obtain ⟨m, hm, hm'⟩ := hord _ hplan j hj
          rw [L_eq hnb] at g2
          have hjr : r0.length < j := by
            apply Nat.lt_of_not_le
            intro hle
            exact g2 j ((holdsAt_left hle).mp hj.1)
          rw [L_eq hn] at h6 ⊢
          have hlt : ¬HoldsAt n.landmark.Holds (runStates t.init (r0 ++ r)) r0.length := by
            rw [holdsAt_left (Nat.le_refl _), holdsAt_last g1.1]
            exact h6
          obtain ⟨q, q1, q2, q3⟩ := exists_added (by omega : r0.length ≤ m) hlt hm'
          obtain ⟨d, rfl⟩ : ∃ d, q = r0.length + d := ⟨q - r0.length, by omega⟩
          exact ⟨d, (addedAt_right g1.1 d).mp (by rw [show r0.length + (d + 1) = r0.length + d + 1 by omega]; exact q3)⟩
        · obtain ⟨na, hna, hord⟩ := hg.parents n (List.mem_of_getElem? hn) y _ hy
          have hylt : y < g.length := (List.getElem?_eq_some_iff.mp hna).1
          obtain ⟨r0, g1, g2⟩ := (hpast y hylt).mp h5
          intro r hr
          have hplan := goalRun_append g1.1 hr
          obtain ⟨k, hk⟩ := hg.landmark na (List.mem_of_getElem? hna) _ hplan
          obtain ⟨j, _, hj⟩ := exists_first hk
          rw [L_eq hna] at g2
          have hjr : r0.length < j := by
            apply Nat.lt_of_not_le
            intro hle
            exact g2 j ((holdsAt_left hle).mp hj.1)
          obtain ⟨k', hk'⟩ := hg.landmark n (List.mem_of_getElem? hn) _ hplan
          obtain ⟨m, _, hm⟩ := exists_first hk'
          rw [L_eq hn]
          have : ∃ q, r0.length < q ∧ AddedAt n.landmark.Holds (runStates t.init (r0 ++ r)) q := by
            by_cases hmj : m ≤ j
            · obtain ⟨q, hq1, hq2⟩ := hord _ hplan m j hm.added hj hmj
              exact ⟨q, by omega, hq2⟩
            · exact ⟨m, by omega, hm.added⟩
          obtain ⟨q, hq1, hq2⟩ := this
          obtain ⟨d, rfl⟩ : ∃ d, q = r0.length + (d + 1) := ⟨q - r0.length - 1, by omega⟩
          exact ⟨d, (addedAt_right g1.1 d).mp hq2⟩
      · simp only [Status.write, if_neg he] at hf
        exact h.sound u i hi hf
    · obtain ⟨r, h5, h6⟩ := hf
      by_cases he : u = s
      · subst he
        simp only [Status.write, if_true]
        rw [hsp.future i hi]
        rcases hobs h5 with h5 | ⟨r0, rfl, _, h5⟩
        · exact Or.inl (h.complete _ i hi ⟨r, h5, h6⟩)
        · obtain ⟨h7, h8⟩ := (notAdded_snoc h5.1).mp h6.2
          exact Or.inr (Or.inl ⟨h.complete p i hi ⟨r0, h5, h6.1, h7⟩, h8⟩)
      · simp only [Status.write, if_neg he]
        rcases hobs h5 with h5 | ⟨_, _, h5, _⟩
        · exact h.complete u i hi ⟨r, h5, h6⟩
        · exact absurd h5 he
    · by_cases he : u = s
      · subst he
        simp only [Status.write, if_true] at hf
        rcases (hsp.future i hi).mp hf with h5 | ⟨h5, h6⟩ | ⟨h5, _⟩ | ⟨h5, _⟩ | ⟨h5, _⟩
        · obtain ⟨r, h6, h7⟩ := h.exact ha hb hc _ i hi h5
          exact ⟨r, h6.mono _, h7⟩
        · obtain ⟨r, h7, h8⟩ := h.exact ha hb hc _ i hi h5
          exact ⟨_, h7.step hst, h8.1, (notAdded_snoc h7.1).mpr ⟨h8.2, h6⟩⟩
        · rw [ha] at h5; cases h5
        · rw [hb] at h5; cases h5
        · rw [hc] at h5; cases h5
      · simp only [Status.write, if_neg he] at hf
        obtain ⟨r, h6, h7⟩ := h.exact ha hb hc _ i hi hf
        exact ⟨r, h6.mono _, h7⟩

theorem inv_observe (hwf : t.WF) (hg : g.Valid t) (a b c : Bool) (es : List Event) (hle : ∀ e ∈ es, e.Legal t) :
    ∃ st, observe t.init (Manager.new g a b c) es = some st ∧ Inv t g a b c es st := by
  induction es using List.reverseRecOn with
  | nil => exact ⟨_, rfl, inv_new t g a b c⟩
  | append_singleton es e ih =>
    obtain ⟨st, h1, h2⟩ := ih (fun e he => hle e (by simp [he]))
    have : observe t.init (Manager.new g a b c) (es ++ [e]) = notify t.init (Manager.new g a b c) st e := by
      unfold observe at h1 ⊢
      rw [List.foldlM_append, h1]
      simp
    rw [this]
    cases e with
    | initial => exact inv_initial hwf hg h2
    | transition p o s => exact inv_transition hwf hg h2 (hle _ (by simp))

end Verif.Landmarks
