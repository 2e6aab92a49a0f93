import Verif.Model.Pdb
import Verif.Spec.Pdb
import Verif.Lemmas.MixedRadix

/-
The ranking function of projections.
-/
namespace Verif.Pdb

/-- the values of the variables of the pattern -/
def vals (P : List Nat) (s : State) : List Nat := P.map (fun v => (s[v]?).getD 0)

/-- the result of the constructor -/
structure ProjOk (t : Task) (P : List Nat) (p : Proj) : Prop where
  pattern : p.pattern = P
  doms : p.doms = P.map t.domain
  mults : p.mults = weights 1 (P.map t.domain)
  n : p.n = (P.map t.domain).prod
  lt : p.n < 2 ^ 31
  pos : ∀ d ∈ P.map t.domain, 1 ≤ d

theorem limit_iff {a b : Nat} (hb : 1 ≤ b) : isProductWithinLimit a b (2 ^ 31 - 1) = true ↔ a * b < 2 ^ 31 := by
  unfold isProductWithinLimit
  simp only [Bool.or_eq_true, decide_eq_true_eq]
  rw [Nat.le_div_iff_mul_le (by omega)]
  constructor
  · rintro (h | h)
    · omega
    · omega
  · intro h; right; omega

theorem weights_append (m : Nat) (ds : List Nat) (d : Nat) : weights m (ds ++ [d]) = weights m ds ++ [m * ds.prod] := by
  induction ds generalizing m with
  | nil => simp [weights]
  | cons e ds ih => simp [weights, ih, Nat.mul_assoc]

theorem projLoop_spec {t : Task} (P : List Nat) (hd : ∀ d ∈ t.vars, 1 ≤ d.domain) : ∀ (vs done : List Nat) (p : Proj), (∀ v ∈ vs, v < t.vars.length) → done ++ vs = P →
    p.pattern = P → p.doms = done.map t.domain → p.mults = weights 1 (done.map t.domain) → p.n = (done.map t.domain).prod → p.n < 2 ^ 31 → (∀ d ∈ done.map t.domain, 1 ≤ d) →
    (if (P.map t.domain).prod < 2 ^ 31 then ∃ p', projLoop t vs p = .ok p' ∧ ProjOk t P p' else projLoop t vs p = .tooLarge)
  | [], done, p, hvs, e, h1, h2, h3, h4, h5, h6 => by
    simp only [List.append_nil] at e
    subst e
    rw [if_pos (by rw [← h4]; exact h5)]
    exact ⟨p, rfl, h1, h2, h3, h4, h5, h6⟩
  | v :: vs, done, p, hvs, e, h1, h2, h3, h4, h5, h6 => by
    have hv := hvs v (by simp)
    have hdv := hd t.vars[v] (by simp)
    have hdom : t.domain v = t.vars[v].domain := by simp [Task.domain, List.getElem?_eq_getElem hv]
    unfold projLoop
    rw [List.getElem?_eq_getElem hv]
    simp only
    have hvd : ∀ w ∈ vs, 1 ≤ t.domain w := by
      intro w hw
      have hw' := hvs w (by simp [hw])
      simp only [Task.domain, List.getElem?_eq_getElem hw', Option.map_some, Option.getD_some]
      exact hd _ (by simp)
    by_cases hlim : p.n * t.vars[v].domain < 2 ^ 31
    · rw [if_pos ((limit_iff hdv).mpr hlim)]
      refine projLoop_spec P hd vs (done ++ [v]) _ (fun w hw => hvs w (by simp [hw])) (by simpa using e) h1 ?_ ?_ ?_ hlim ?_
      · simp [h2, hdom]
      · simp only [List.map_append, List.map_cons, List.map_nil]
        rw [weights_append, h3, h4, Nat.one_mul]
      · simp [h4, hdom]
      · intro d hd'
        simp only [List.map_append, List.map_cons, List.map_nil, List.mem_append, List.mem_singleton] at hd'
        rcases hd' with a | a
        · exact h6 d a
        · omega
    · rw [if_neg (fun hc => hlim ((limit_iff hdv).mp hc))]
      rw [if_neg]
      intro hc
      apply hlim
      rw [← e] at hc
      simp only [List.map_append, List.map_cons, List.prod_append, List.prod_cons] at hc
      have hge : 1 ≤ (vs.map t.domain).prod := prod_pos_of (by simpa using hvd)
      rw [h4, ← hdom]
      calc _ = (done.map t.domain).prod * (t.domain v * 1) := by rw [Nat.mul_one]
        _ ≤ (done.map t.domain).prod * (t.domain v * (vs.map t.domain).prod) := Nat.mul_le_mul_left _ (Nat.mul_le_mul_left _ hge)
        _ < 2 ^ 31 := hc

theorem project_spec {t : Task} (hd : ∀ d ∈ t.vars, 1 ≤ d.domain) (hax : t.axioms = []) (hc : ∀ o ∈ t.ops, ∀ e ∈ o.effects, e.conds = []) {P : List Nat} (hP : ∀ v ∈ P, v < t.vars.length) :
    if t.numAbstractStates P < 2 ^ 31 then ∃ p, project t P = .ok p ∧ ProjOk t P p else project t P = .tooLarge := by
  have h1 : project t P = projLoop t P ⟨P, [], [], 1⟩ := by
    unfold project
    have h2 : ¬((t.ops.any (fun o => o.effects.any (fun e => decide (e.conds ≠ [])))) = true) := by
      intro h
      obtain ⟨o, ho, h⟩ := List.any_eq_true.mp h
      obtain ⟨e, he, h⟩ := List.any_eq_true.mp h
      simp [hc o ho e he] at h
    rw [if_neg (by simp [hax]), if_neg h2]
  rw [h1]
  exact projLoop_spec P hd P [] ⟨P, [], [], 1⟩ hP rfl rfl rfl rfl rfl (by simp) (by simp)

theorem vals_valid {t : Task} {P : List Nat} (hP : ∀ v ∈ P, v < t.vars.length) {s : State} (hs : t.ValidState s) : Valid (P.map t.domain) (vals P s) := by
  rw [valid_iff]
  refine ⟨by simp [vals], fun j d x h1 h2 => ?_⟩
  simp only [vals, List.getElem?_map, Option.map_eq_some_iff] at h1 h2
  obtain ⟨v, h3, rfl⟩ := h1
  obtain ⟨v', h4, rfl⟩ := h2
  rw [h3] at h4
  simp only [Option.some.injEq] at h4
  subst h4
  have hv := hP v (List.mem_of_getElem? h3)
  have hv' : v < s.length := by rw [hs.1]; exact hv
  simp only [Task.domain, List.getElem?_eq_getElem hv, List.getElem?_eq_getElem hv', Option.map_some, Option.getD_some]
  exact hs.2 v _ _ (List.getElem?_eq_getElem hv') (List.getElem?_eq_getElem hv)

theorem vals_getElem? {t : Task} {P : List Nat} (hP : ∀ v ∈ P, v < t.vars.length) {s : State} (hs : t.ValidState s) {j v : Nat} (hj : P[j]? = some v) : (vals P s)[j]? = s[v]? := by
  have hv : v < s.length := by rw [hs.1]; exact hP v (List.mem_of_getElem? hj)
  simp [vals, hj, List.getElem?_eq_getElem hv]

theorem rankLoop_spec {t : Task} {s : State} (hs : t.ValidState s) : ∀ (P : List Nat) (m index : Nat), (∀ v ∈ P, v < t.vars.length) → index + m * enc (P.map t.domain) (vals P s) < 2 ^ 31 →
    rankLoop s P (weights m (P.map t.domain)) index = some (index + m * enc (P.map t.domain) (vals P s))
  | [], m, index, _, h => by
    simp only [List.map_nil, weights, rankLoop, enc, Nat.mul_zero, Nat.add_zero] at h ⊢
    rw [if_pos h]
  | v :: P, m, index, hP, h => by
    have hv : v < s.length := by rw [hs.1]; exact hP v (by simp)
    simp only [List.map_cons, weights, rankLoop, vals, enc, List.getElem?_eq_getElem hv, Option.getD_some] at h ⊢
    have e : index + m * (s[v] + t.domain v * enc (P.map t.domain) (vals P s)) = index + m * s[v] + m * t.domain v * enc (P.map t.domain) (vals P s) := by ring
    have h' : index + m * s[v] + m * t.domain v * enc (P.map t.domain) (vals P s) < 2 ^ 31 := by rw [← e]; exact h
    have hle : index + m * s[v] < 2 ^ 31 := Nat.lt_of_le_of_lt (Nat.le_add_right _ _) h'
    rw [if_pos (by omega), Nat.mod_eq_of_lt (by omega)]
    rw [rankLoop_spec hs P (m * t.domain v) (index + m * s[v]) (fun w hw => hP w (by simp [hw])) h']
    exact congrArg some e.symm

section
variable {t : Task} {P : List Nat} {p : Proj}

theorem rank_eq (hp : ProjOk t P p) (hP : ∀ v ∈ P, v < t.vars.length) {s : State} (hs : t.ValidState s) : p.rank s = some (enc (P.map t.domain) (vals P s)) := by
  have hlt := enc_lt (vals_valid hP hs)
  have hn := hp.lt
  rw [hp.n] at hn
  have := rankLoop_spec hs P 1 0 hP (by omega)
  unfold Proj.rank
  rw [hp.pattern, hp.mults, this]
  simp

theorem enc_lt_n (hp : ProjOk t P p) {xs : List Nat} (h : Valid (P.map t.domain) xs) : enc (P.map t.domain) xs < p.n := by
  rw [hp.n]; exact enc_lt h

theorem unrank_eq (hp : ProjOk t P p) (i j : Nat) : p.unrank i j = (digits (P.map t.domain) i)[j]? := by
  unfold Proj.unrank
  rw [hp.mults, hp.doms, weights_getElem?, digits_getElem?]
  cases hd : (P.map t.domain)[j]? with
  | none => simp
  | some d =>
    have h1 := hp.pos d (List.mem_of_getElem? hd)
    have h2 : 1 ≤ ((P.map t.domain).take j).prod := prod_pos_of (fun x hx => hp.pos x (List.mem_of_mem_take hx))
    simp only [Option.map_some, Nat.one_mul]
    rw [if_neg (by omega)]

theorem mult_eq (hp : ProjOk t P p) {j : Nat} (hj : j < P.length) : p.mults[j]? = some ((P.map t.domain).take j).prod := by
  rw [hp.mults, weights_getElem?]
  simp [hj]

/-- the states with given values of the pattern -/
theorem exists_vals (hwf : t.WF) (hP : t.IsPattern P) {xs : List Nat} (h : Valid (P.map t.domain) xs) (s : State) (hs : t.ValidState s) : ∃ s', t.ValidState s' ∧ vals P s' = xs ∧ ∀ v, v ∉ P → s'[v]? = s[v]? := by
  obtain ⟨h1, h2⟩ := hP
  induction P generalizing xs s with
  | nil =>
    refine ⟨s, hs, ?_, fun _ _ => rfl⟩
    have := h.length
    simp at this
    cases xs with
    | nil => rfl
    | cons _ _ => simp at this
  | cons v P ih =>
    cases xs with
    | nil => exact absurd h.length (by simp)
    | cons x xs =>
      obtain ⟨hx, hxs⟩ : x < t.domain v ∧ Valid (P.map t.domain) xs := by
        cases h with
        | cons a b => exact ⟨a, b⟩
      rw [List.nodup_cons] at h2
      obtain ⟨s', k1, k2, k3⟩ := ih hxs s hs (fun w hw => h1 w (by simp [hw])) h2.2
      have hv : v < t.vars.length := h1 v (by simp)
      have hv' : v < s'.length := by rw [k1.1]; exact hv
      refine ⟨s'.set v x, ⟨by simpa using k1.1, ?_⟩, ?_, ?_⟩
      · intro w y d hw hd
        rw [List.getElem?_set] at hw
        split at hw
        · rename_i e
          subst e
          simp only [Option.some.injEq] at hw
          subst hw
          simp only [Task.domain, hd, Option.map_some, Option.getD_some] at hx
          exact hx
        · exact k1.2 w y d hw hd
      · simp only [vals, List.map_cons]
        rw [List.getElem?_set_self hv']
        simp only [Option.getD_some, List.cons.injEq, true_and]
        rw [← k2]
        refine List.map_congr_left (fun w hw => ?_)
        have : v ≠ w := fun e => h2.1 (e ▸ hw)
        rw [List.getElem?_set_ne this]
      · intro w hw
        simp only [List.mem_cons, not_or] at hw
        rw [List.getElem?_set_ne (Ne.symm hw.1)]
        exact k3 w hw.2

end
end Verif.Pdb
