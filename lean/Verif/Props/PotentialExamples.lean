import Verif.Props.Potentials
import Verif.Lemmas.FourierMotzkin
import Verif.Lemmas.AstarHeuristic
import Verif.Lemmas.SimpleTask

/-
C63: potential heuristics: diverse potential heuristics, A*, the limits of the tolerance, and examples.
-/
namespace Verif.Potentials
open Verif.LP Verif.Search

/-! ### Tolerances -/

/-- a chain of `n` operators without costs -/
def chain (n : Nat) : Task where
  vars := [⟨n + 1, none, 0⟩]
  ops := (List.range n).map (fun i => ⟨[⟨0, i⟩], [⟨[], ⟨0, i + 1⟩⟩], 0⟩)
  axioms := []
  init := [0]
  goal := [⟨0, n⟩]

theorem chain_ok {n : Nat} (hn : n + 1 < 2 ^ 31) : (chain n).PotentialOk := by
  refine ⟨⟨⟨by simp [chain], by simp [chain, Task.rules], by simp [chain, Task.rules], by simp [chain, Task.rules], by simp [chain, Task.rules], by simp [chain, Task.rules], ?_, ?_, by simp [chain, Task.rules], by simp [chain, Task.rules]⟩, ?_, ?_, ?_, ?_, ?_, ?_⟩, rfl, ?_, ?_⟩
  · intro _ v
    unfold Task.layerOf chain
    cases v <;> simp
  · intro v d hv hd
    cases v with
    | zero => simp [chain] at hv; rw [← hv] at hd; simp at hd
    | succ v => simp [chain] at hv
  · intro d hd
    simp only [chain, List.mem_singleton] at hd
    subst hd
    exact ⟨by simp, by simpa using hn⟩
  · refine ⟨rfl, fun v x d hx hd => ?_⟩
    cases v with
    | zero => simp [chain] at hx hd; subst hx hd; simp
    | succ v => simp [chain] at hx
  · intro o ho e he
    simp only [chain, List.mem_map, List.mem_range] at ho
    obtain ⟨i, hi, rfl⟩ := ho
    simp only [List.mem_singleton] at he
    subst he
    exact ⟨_, rfl, by simpa using hi⟩
  · intro o ho e he
    simp only [chain, List.mem_map, List.mem_range] at ho
    obtain ⟨i, hi, rfl⟩ := ho
    simp only [List.mem_singleton] at he
    subst he
    simp
  · intro o ho c hc
    simp only [chain, List.mem_map, List.mem_range] at ho
    obtain ⟨i, hi, rfl⟩ := ho
    simp only [List.mem_singleton] at hc
    subst hc
    exact ⟨_, rfl, by simp only; omega⟩
  · intro f hf
    simp only [chain, List.mem_singleton] at hf
    subst hf
    exact ⟨_, rfl, by simp⟩
  · intro o ho e he
    simp only [chain, List.mem_map, List.mem_range] at ho
    obtain ⟨i, hi, rfl⟩ := ho
    simp only [List.mem_singleton] at he
    subst he
    rfl
  · intro o ho
    simp only [chain, List.mem_map, List.mem_range] at ho
    obtain ⟨i, hi, rfl⟩ := ho
    simp

theorem chain_plan {n : Nat} (ht : (chain n).PotentialOk) (k : Nat) (hk : k ≤ n) : (chain n).Exec [n - k] ((List.range k).map (fun i => n - k + i)) [n] := by
  induction k with
  | zero => exact .nil _
  | succ k ih =>
    rw [List.range_succ_eq_map, List.map_cons, List.map_map]
    have h := ih (by omega)
    have e : (List.range k).map ((fun i => n - (k + 1) + i) ∘ Nat.succ) = (List.range k).map (fun i => n - k + i) := List.map_congr_left (fun i _ => by simp only [Function.comp_apply]; omega)
    rw [e]
    have hop : (chain n).ops[n - (k + 1) + 0]? = some ⟨[⟨0, n - (k + 1)⟩], [⟨[], ⟨0, n - (k + 1) + 1⟩⟩], 0⟩ := by
      simp only [chain, List.getElem?_map, Nat.add_zero]
      rw [List.getElem?_range (by omega)]
      rfl
    have hv : (chain n).ValidState [n - (k + 1)] := by
      refine ⟨rfl, fun v x d hx hd => ?_⟩
      cases v with
      | zero => simp [chain] at hx hd; subst hx hd; simp only; omega
      | succ v => simp at hx
    obtain ⟨s', h1, h2⟩ := exists_succ ht.wf hv (List.mem_of_getElem? hop)
    obtain ⟨h3, h4, _⟩ := succ_simple ht.wf rfl (ht.conds _ (List.mem_of_getElem? hop)) (ht.eff _ (List.mem_of_getElem? hop)) h2
    have h5 := h4 ⟨[], ⟨0, n - (k + 1) + 1⟩⟩ (by simp) (by simp)
    have e2 : s' = [n - k] := by
      cases s' with
      | nil => simp at h3
      | cons y s' =>
        cases s' with
        | nil => simp at h5; rw [h5]; congr 1; omega
        | cons _ _ => simp at h3
    subst e2
    refine .cons _ _ _ [n - k] _ _ hop ?_ h2 h
    intro f hf
    simp only [List.mem_singleton] at hf
    subst hf
    rfl

/-- C63: with a tolerance of one millionth (the default of LP solvers), solutions of the linear program for a task with a long plan can lead to a heuristic that is not
admissible: the rounding does not compensate for the sum of errors. -/
theorem C63_tolerance_fails : ∃ (t : Task) (p : Program) (x : Nat → Rat) (π : List Nat), t.PotentialOk ∧ constructLp t none = some p ∧ p.NearlyFeasible (1 / 1000000) x ∧ t.IsPlan π ∧ t.planCost π = 0 ∧
    computeHeuristic (extract t x) t.init = some 1 := by
  obtain ⟨n, hn⟩ : ∃ n : Nat, n = 20000 := ⟨_, rfl⟩
  have hq : (n : Rat) = 20000 := by rw [hn]; norm_num
  have ht := chain_ok (n := n) (by omega)
  obtain ⟨p, hp, _⟩ := C63_linear_program ht none
  have hgoal : goalV (chain n) 0 = n := by simp [goalV, goalValue, chain]
  let w : Nat → Nat → Rat := fun _ a => if a ≤ n then (n - a) / 1000000 else n / 1000000
  have hvar : ∀ {v : Nat} {d : Variable}, (chain n).vars[v]? = some d → v = 0 ∧ d = ⟨n + 1, none, 0⟩ := by
    intro v d hd
    cases v with
    | zero => simp [chain] at hd; exact ⟨rfl, hd.symm⟩
    | succ v => simp [chain] at hd
  have hsol : Sol (chain n) none (1 / 1000000) w := by
    refine ⟨fun v d hd => ?_, fun v d a m _ _ _ hm => by simp at hm, fun v d a hd ha => ?_, fun o ho => ?_⟩
    · obtain ⟨rfl, rfl⟩ := hvar hd
      rw [hgoal]
      norm_num [w]
    · obtain ⟨rfl, rfl⟩ := hvar hd
      simp only at ha
      have h1 : w 0 (n + 1) = n / 1000000 := by norm_num [w]
      simp only [h1]
      have h2 : w 0 a = (n - a) / 1000000 := by simp only [w]; rw [if_pos (by omega)]
      rw [h2]
      have : (0 : Rat) ≤ a := by positivity
      linarith
    · simp only [chain, List.mem_map, List.mem_range] at ho
      obtain ⟨i, hi, rfl⟩ := ho
      have hpre : preV (chain n) ⟨[⟨0, i⟩], [⟨[], ⟨0, i + 1⟩⟩], 0⟩ 0 = i := by simp [preV, preValue]
      simp only [List.map_cons, List.map_nil, List.sum_cons, List.sum_nil, hpre]
      have h2 : w 0 i = (n - i) / 1000000 := by simp only [w]; rw [if_pos (by omega)]
      have h3 : w 0 (i + 1) = (n - (i + 1 : Nat)) / 1000000 := by simp only [w]; rw [if_pos (by omega)]
      rw [h2, h3]
      push_cast
      linarith
  have hweight : ∀ v d a, (chain n).vars[v]? = some d → a ≤ d.domain → w v a = weight (chain n) (encode (chain n) w) v a := fun v d a hd ha => (encode_weight hd ha).symm
  have hplan : (chain n).Exec (chain n).init (List.range n) [n] := by
    have h := chain_plan ht n (le_refl _)
    simp only [Nat.sub_self, Nat.zero_add, List.map_id'] at h
    exact h
  refine ⟨chain n, p, encode (chain n) w, _, ht, hp, (nearly_iff ht hp _ _).mpr (sol_congr ht hweight hsol), ⟨_, hplan, ?_⟩, ?_, ?_⟩
  · intro f hf
    simp only [chain, List.mem_singleton] at hf
    subst hf
    rfl
  · have : ∀ i, (chain n).opCost i = 0 := by
      intro i
      simp only [Task.opCost, chain, List.getElem?_map]
      cases (List.range n)[i]? <;> simp
    have h0 : ∀ l : List Nat, (l.map (chain n).opCost).sum = 0 := fun l => by
      induction l with
      | nil => rfl
      | cons i l ih => simp [this, ih]
    exact h0 _
  · have hs : (chain n).ValidState (chain n).init := ht.wf.init
    unfold computeHeuristic getValue
    rw [sumPotentials_eq (extract_shape _ _) hs, extract_potential hs]
    have : potential (weight (chain n) (encode (chain n) w)) (chain n).init = 1 / 50 := by
      rw [← potential_congr (fun v d a hd ha => hweight v d a hd (Nat.le_of_lt ha)) hs]
      simp [potential, chain, w, hq]
      norm_num
    rw [this]
    have hc : ⌈(1 / 50 : Rat) - 1 / 100⌉ = 1 := by
      rw [Int.ceil_eq_iff]
      norm_num
    simp only [hc]
    norm_num

/-! ### Diverse potential heuristics -/

/-- the function of an entry is the best one for its sample -/
def EntryOk (t : Task) (p : Program) (e : Entry) : Prop :=
  t.ValidState e.1 ∧ ∃ x, p.Feasible x ∧ e.2 = extract t x ∧ ∀ y, p.Feasible y → potential (weight t y) e.1 ≤ potential (weight t x) e.1

theorem filterSamples_spec {t : Task} (ht : t.PotentialOk) {mp : Option Rat} {solve : Program → Option (Nat → Rat)} (hsolve : MaxSolver solve) {p : Program} (hp : constructLp t mp = some p) :
    ∀ (ss : List State) (opt : Optimizer) (map : List Entry) (dead : List State), (∀ s ∈ ss, t.ValidState s) → (∀ e ∈ map, EntryOk t p e) →
      (∀ s ∈ dead, ¬((∃ x, p.Feasible x) ∧ ∃ b, ∀ x, p.Feasible x → potential (weight t x) s ≤ b)) →
      ∃ opt' map', filterSamples t mp solve ss opt map dead = some (opt', map') ∧ (∀ e ∈ map', EntryOk t p e) ∧ (∀ e ∈ map, e ∈ map') ∧ map'.length ≤ map.length + ss.length ∧ (∀ e ∈ map', e ∈ map ∨ e.1 ∈ ss) ∧
        ∀ s ∈ ss, ((∃ x, p.Feasible x) ∧ ∃ b, ∀ x, p.Feasible x → potential (weight t x) s ≤ b) → s ∈ map'.map (·.1)
  | [], opt, map, dead, _, hm, _ => ⟨opt, map, rfl, hm, fun _ h => h, by simp, fun _ h => .inl h, by simp⟩
  | s :: ss, opt, map, dead, hss, hm, hd => by
    unfold filterSamples
    by_cases hin : s ∈ map.map (·.1) ∨ s ∈ dead
    · rw [if_pos hin]
      obtain ⟨opt', map', k1, k2, k3, k4, k6, k5⟩ := filterSamples_spec ht hsolve hp ss opt map dead (fun s hs => hss s (by simp [hs])) hm hd
      refine ⟨opt', map', k1, k2, k3, by simp only [List.length_cons]; omega, fun e he => (k6 e he).imp id (fun h => by simp [h]), fun s' hs' hb => ?_⟩
      rcases List.mem_cons.mp hs' with rfl | hs'
      · rcases hin with hin | hin
        · obtain ⟨e, he, rfl⟩ := List.mem_map.mp hin
          exact List.mem_map.mpr ⟨e, k3 e he, rfl⟩
        · exact absurd hb (hd _ hin)
      · exact k5 s' hs' hb
    · rw [if_neg hin]
      have hs := hss s (by simp)
      rcases optimize_spec ht hsolve (tg := .samples [s]) (by simpa [TargetOk] using hs) opt hp with ⟨j1, _⟩ | ⟨_, x, j1, j2, j3⟩ | ⟨_, j1, j2⟩
      · simp at j1
      · simp only [j3, if_true]
        have he : EntryOk t p (s, extract t x) := ⟨hs, x, j1, rfl, fun y hy => by simpa [objective] using j2 y hy⟩
        obtain ⟨opt', map', k1, k2, k3, k4, k6, k5⟩ := filterSamples_spec ht hsolve hp ss ⟨extract t x, true⟩ (map ++ [(s, extract t x)]) dead (fun s hs => hss s (by simp [hs])) (fun e he' => by
          rcases List.mem_append.mp he' with h | h
          · exact hm e h
          · rw [List.mem_singleton.mp h]; exact he) hd
        refine ⟨opt', map', k1, k2, fun e he => k3 e (by simp [he]), by simp at k4 ⊢; omega, fun e he' => ?_, fun s' hs' hb => ?_⟩
        · rcases k6 e he' with h | h
          · rcases List.mem_append.mp h with h | h
            · exact .inl h
            · rw [List.mem_singleton.mp h]; exact .inr (by simp)
          · exact .inr (by simp [h])
        rcases List.mem_cons.mp hs' with rfl | hs'
        · exact List.mem_map.mpr ⟨_, k3 _ (List.mem_append.mpr (.inr (List.mem_singleton.mpr rfl))), rfl⟩
        · exact k5 s' hs' hb
      · rw [if_neg (by simp)] at j2
        simp only [j2]
        rw [if_neg (by simp)]
        obtain ⟨opt', map', k1, k2, k3, k4, k6, k5⟩ := filterSamples_spec ht hsolve hp ss { opt with solved := false } map (s :: dead) (fun s hs => hss s (by simp [hs])) hm (fun s' hs' => by
          rcases List.mem_cons.mp hs' with rfl | hs'
          · simpa [objective] using j1
          · exact hd s' hs')
        refine ⟨opt', map', k1, k2, k3, by simp only [List.length_cons]; omega, fun e he => (k6 e he).imp id (fun h => by simp [h]), fun s' hs' hb => ?_⟩
        rcases List.mem_cons.mp hs' with rfl | hs'
        · exact absurd hb (by simpa [objective] using j1)
        · exact k5 s' hs' hb

/-- the value of every function the linear program allows fits into an `int` in the given states -/
def Fits (t : Task) (p : Program) (ss : List State) : Prop := ∀ x, p.Feasible x → ∀ s ∈ ss, getValue (extract t x) s ≠ none

theorem getValue_mono {t : Task} {x y : Nat → Rat} {s : State} (hs : t.ValidState s) (h : potential (weight t x) s ≤ potential (weight t y) s) {a b : Int}
    (ha : getValue (extract t x) s = some a) (hb : getValue (extract t y) s = some b) : a ≤ b := by
  have key : ∀ {z : Nat → Rat} {c : Int}, getValue (extract t z) s = some c → c = ⌈potential (weight t z) s - 1 / 100⌉ := by
    intro z c hc
    unfold getValue at hc
    rw [sumPotentials_eq (extract_shape _ _) hs, extract_potential hs] at hc
    simp only at hc
    split at hc
    · cases hc; rfl
    · simp at hc
  rw [key ha, key hb]
  exact Int.ceil_le_ceil (by linarith)

theorem removeCovered_spec {t : Task} {p : Program} {x : Nat → Rat} (hx : p.Feasible x) : ∀ (map : List Entry), (∀ e ∈ map, EntryOk t p e) → Fits t p (map.map (·.1)) →
    ∃ map', removeCovered (extract t x) map = some map' ∧ map'.Sublist map ∧ ∀ e ∈ map, e ∈ map' ∨ getValue (extract t x) e.1 = getValue e.2 e.1
  | [], _, _ => ⟨[], rfl, List.Sublist.refl _, by simp⟩
  | e :: map, hm, hf => by
    obtain ⟨map', k1, k2, k3⟩ := removeCovered_spec hx map (fun e he => hm e (by simp [he])) (fun x hx s hs => hf x hx s (by simp only [List.map_cons, List.mem_cons]; exact .inr hs))
    obtain ⟨h1, y, h2, h3, h4⟩ := hm e (by simp)
    cases ha : getValue e.2 e.1 with
    | none => rw [h3] at ha; exact absurd ha (hf y h2 _ (by simp))
    | some a =>
      cases hb : getValue (extract t x) e.1 with
      | none => exact absurd hb (hf x hx _ (by simp))
      | some b =>
        have hle : b ≤ a := getValue_mono h1 (h4 x hx) hb (h3 ▸ ha)
        simp only [removeCovered, ha, hb, k1, if_pos hle]
        by_cases he : b = a
        · rw [if_pos he]
          refine ⟨map', rfl, k2.cons _, fun e' he' => ?_⟩
          rcases List.mem_cons.mp he' with rfl | he'
          · exact .inr (by rw [ha, hb, he])
          · exact k3 e' he'
        · rw [if_neg he]
          refine ⟨e :: map', rfl, k2.cons₂ _, fun e' he' => ?_⟩
          rcases List.mem_cons.mp he' with rfl | he'
          · exact .inl (by simp)
          · exact (k3 e' he').imp (fun h => by simp [h]) id

theorem findFunction_spec {t : Task} (ht : t.PotentialOk) {mp : Option Rat} {solve : Program → Option (Nat → Rat)} (hsolve : MaxSolver solve) {p : Program} (hp : constructLp t mp = some p)
    {map : List Entry} (hne : map ≠ []) (hm : ∀ e ∈ map, EntryOk t p e) (hf : Fits t p (map.map (·.1))) (opt : Optimizer) :
    ∃ opt' f map', findFunction t mp solve opt map = some (opt', f, map') ∧ (∃ x, p.Feasible x ∧ f = extract t x) ∧ map'.Sublist map ∧ map'.length < map.length ∧
      ∀ e ∈ map, e ∈ map' ∨ getValue f e.1 = getValue e.2 e.1 := by
  have htg : TargetOk t (.samples (map.map (·.1))) := by
    intro s hs
    obtain ⟨e, he, rfl⟩ := List.mem_map.mp hs
    exact (hm e he).1
  unfold findFunction
  rcases optimize_spec ht hsolve htg opt hp with ⟨j1, _⟩ | ⟨_, x, j1, _, j3⟩ | ⟨j0, j1, j2⟩
  · simp at j1
  · simp only [j3, if_true]
    obtain ⟨map', k1, k2, k3⟩ := removeCovered_spec j1 map hm hf
    simp only [k1]
    by_cases hl : map'.length = map.length
    · rw [if_pos hl]
      cases map with
      | nil => exact absurd rfl hne
      | cons e rest =>
        obtain ⟨h1, y, h2, h3, h4⟩ := hm e (by simp)
        obtain ⟨rest', r1, r2, r3⟩ := removeCovered_spec h2 rest (fun e he => hm e (by simp [he])) (fun x hx s hs => hf x hx s (by simp only [List.map_cons, List.mem_cons]; exact .inr hs))
        simp only [h3, r1]
        refine ⟨_, _, _, rfl, ⟨y, h2, rfl⟩, r2.cons _, ?_, fun e' he' => ?_⟩
        · have := r2.length_le
          simp only [List.length_cons]
          omega
        · rcases List.mem_cons.mp he' with rfl | he'
          · exact .inr (by rw [h3])
          · exact r3 e' he'
    · rw [if_neg hl]
      have := k2.length_le
      exact ⟨_, _, _, rfl, ⟨x, j1, rfl⟩, k2, by omega, k3⟩
  · refine absurd ?_ j1
    refine ⟨?_, ?_⟩
    · cases map with
      | nil => exact absurd rfl hne
      | cons e rest => obtain ⟨_, y, h2, _⟩ := hm e (by simp); exact ⟨y, h2⟩
    · simp only [objective, List.map_map]
      clear hf htg hne j0 j1 j2
      induction map with
      | nil => exact ⟨0, by simp⟩
      | cons e map ih =>
        obtain ⟨b, hb⟩ := ih (fun e he => hm e (by simp [he])) 
        obtain ⟨_, y, h2, _, h4⟩ := hm e (by simp)
        refine ⟨potential (weight t y) e.1 + b, fun z hz => ?_⟩
        simp only [List.map_cons, List.sum_cons, Function.comp]
        exact add_le_add (h4 z hz) (hb z hz)

theorem coverSamples_spec {t : Task} (ht : t.PotentialOk) {mp : Option Rat} {solve : Program → Option (Nat → Rat)} (hsolve : MaxSolver solve) {p : Program} (hp : constructLp t mp = some p) :
    ∀ (k : Nat) (opt : Optimizer) (map : List Entry), (∀ e ∈ map, EntryOk t p e) → Fits t p (map.map (·.1)) →
      ∃ funs, coverSamples t mp solve k opt map = some funs ∧ funs.length ≤ k ∧ funs.length ≤ map.length ∧ (∀ f ∈ funs, ∃ x, p.Feasible x ∧ f = extract t x) ∧
        (funs.length < k → ∀ e ∈ map, ∃ f ∈ funs, getValue f e.1 = getValue e.2 e.1)
  | 0, _, _, _, _ => ⟨[], rfl, by simp, by simp, by simp, by simp⟩
  | k + 1, opt, map, hm, hf => by
    unfold coverSamples
    by_cases hne : map = []
    · subst hne
      exact ⟨[], by simp, by simp, by simp, by simp, by simp⟩
    · rw [if_neg hne]
      obtain ⟨opt', f, map', k1, k2, k3, k4, k5⟩ := findFunction_spec ht hsolve hp hne hm hf opt
      simp only [k1]
      obtain ⟨funs, r1, r2, r3, r4, r5⟩ := coverSamples_spec ht hsolve hp k opt' map' (fun e he => hm e (k3.subset he)) (fun x hx s hs => hf x hx s ((k3.map _).subset hs))
      rw [r1]
      refine ⟨f :: funs, rfl, by simp only [List.length_cons]; omega, by simp only [List.length_cons]; omega, fun g hg => ?_, fun hlt e he => ?_⟩
      · rcases List.mem_cons.mp hg with rfl | hg
        · exact k2
        · exact r4 g hg
      · rcases k5 e he with h | h
        · obtain ⟨g, hg, hg'⟩ := r5 (by simp only [List.length_cons] at hlt; omega) e h
          exact ⟨g, by simp [hg], hg'⟩
        · exact ⟨f, by simp, h⟩

/-- C63, diverse potential heuristics: for every list of samples, every order in which the hash map is iterated and every previous state of the optimiser, if the values
of the functions fit into an `int` for the samples, then: the search for functions ends (and no assertion fails); there are at most `maxNum` functions and not more
than there are samples; all functions are consistent and goal-aware; and if there are less than `maxNum` functions, then for every sample whose potential is bounded one of
the functions has the greatest value a function that satisfies the constraints can have. -/
theorem C63_diverse {t : Task} (ht : t.PotentialOk) {mp : Option Rat} {solve : Program → Option (Nat → Rat)} (hsolve : MaxSolver solve) {p : Program} (hp : constructLp t mp = some p)
    {order : List Entry → List Entry} (horder : ∀ l, (order l).Perm l) (maxNum : Nat) {samples : List State} (hs : ∀ s ∈ samples, t.ValidState s) (hf : Fits t p samples) (opt : Optimizer) :
    ∃ funs, findFunctions t mp solve order maxNum samples opt = some funs ∧ funs.length ≤ maxNum ∧ funs.length ≤ samples.length ∧
      (∀ f ∈ funs, t.PotConsistent (weights f) ∧ t.PotGoalAware (weights f)) ∧
      (funs.length < maxNum → ∀ s ∈ samples, ((∃ x, p.Feasible x) ∧ ∃ b, ∀ x, p.Feasible x → potential (weights (extract t x)) s ≤ b) →
        ∃ f ∈ funs, ∀ y, p.Feasible y → ∃ a b : Int, getValue (extract t y) s = some a ∧ getValue f s = some b ∧ a ≤ b) := by
  obtain ⟨opt', map, k1, k2, _, k4, k6, k5⟩ := filterSamples_spec ht hsolve hp samples opt [] [] hs (by simp) (by simp)
  have hperm := horder map
  obtain ⟨funs, r1, r2, r3, r4, r5⟩ := coverSamples_spec ht hsolve hp maxNum opt' (order map) (fun e he => k2 e (hperm.mem_iff.mp he)) (fun x hx s hs' => by
    obtain ⟨e, he, rfl⟩ := List.mem_map.mp hs'
    rcases k6 e (hperm.mem_iff.mp he) with h | h
    · simp at h
    · exact hf x hx _ h)
  refine ⟨funs, by unfold findFunctions; simp only [k1]; exact r1, r2, by rw [hperm.length_eq] at r3; simp at k4; omega, fun f hf' => ?_, fun hlt s hs' hb => ?_⟩
  · obtain ⟨x, hx, rfl⟩ := r4 f hf'
    exact (C63_characterisation ht hp).1 x hx
  · have hv := hs s hs'
    obtain ⟨e, he, rfl⟩ := List.mem_map.mp (k5 s hs' ⟨hb.1, by
      obtain ⟨b, hb⟩ := hb.2
      exact ⟨b, fun x hx => by rw [← extract_potential hv]; exact hb x hx⟩⟩)
    obtain ⟨f, hf1, hf2⟩ := r5 hlt e (hperm.mem_iff.mpr he)
    obtain ⟨_, z, h2, h3, h4⟩ := k2 e he
    refine ⟨f, hf1, fun y hy => ?_⟩
    cases ha : getValue (extract t y) e.1 with
    | none => exact absurd ha (hf y hy _ hs')
    | some a =>
      cases hb' : getValue (extract t z) e.1 with
      | none => exact absurd hb' (hf z h2 _ hs')
      | some b => exact ⟨a, b, rfl, by rw [hf2, h3, hb'], getValue_mono hv (h4 y hy) ha hb'⟩

/-! ### A* -/

/-- C63 and C23: A* with a potential heuristic whose potentials are between -2^30 and 2^30, on a task whose costs fit into the C++ types, ends; it returns a plan of minimal
cost if there is a plan, and fails otherwise. -/
theorem C63_astar {t : Task} (ht : t.PotentialOk) {mp : Option Rat} {solve : Program → Option (Nat → Rat)} (hsolve : MaxSolver solve) {pots : List (List Rat)} (h : Optimised t mp solve pots)
    (hb : ∀ s, t.ValidState s → -2 ^ 30 ≤ potential (weights pots) s ∧ potential (weights pots) s ≤ 2 ^ 30 - 1) (hfit : t.FitsTypes .normal) (hC : ∀ i, t.opCost i < 2 ^ 29) :
    ∃ hobj : AdmissibleObject t (fun _ : Unit => True) (fun s m => (computeHeuristic pots s).map (fun h => (some h.toNat, m))),
      ∀ (u : Nat → Nat → Bool) (H : OpenList.StdHeap State) (rel : Nat → Bool) (rng : OpenList.Rng) (σ : { _m : Unit // True }),
        ∃ n, OptimalResult t (Eager.search (World.ofTask t u .normal) (objEnv hobj) H rel ⟨true, 2147483647⟩ (.tiebreaking false false [1, 0]) rng σ n) := by
  obtain ⟨h1, h2, _⟩ := C63_heuristic ht hsolve h
  have hobj : AdmissibleObject t (fun _ : Unit => True) (fun s m => (computeHeuristic pots s).map (fun h => (some h.toNat, m))) := by
    intro s m hs _
    obtain ⟨b1, b2⟩ := hb s hs
    have hv := h1 s hs (by linarith) (by linarith)
    obtain ⟨k1, _, k3⟩ := h2 s _ hs hv
    refine ⟨_, m, by simp only [hv]; rfl, trivial, fun n hn => ?_, fun π hπ => ⟨_, rfl, ?_⟩⟩
    · simp only [Option.some.injEq] at hn
      have hc : ⌈potential (weights pots) s - 1 / 100⌉ ≤ 2 ^ 30 - 1 := by
        rw [Int.ceil_le]
        push_cast
        linarith
      omega
    · have := k3 π hπ
      omega
  exact ⟨hobj, fun u H rel rng σ => astar_object hobj ht.wf hfit hC u H rel rng σ⟩

/-! ### Example -/

/-- a truck (at A or B) and a package (at A, at B or in the truck) that has to be brought from A to B -/
def exDelivery : Task where
  vars := [⟨2, none, 0⟩, ⟨3, none, 0⟩]
  ops := [⟨[⟨0, 0⟩], [⟨[], ⟨0, 1⟩⟩], 1⟩, ⟨[⟨0, 1⟩], [⟨[], ⟨0, 0⟩⟩], 1⟩, ⟨[⟨0, 0⟩, ⟨1, 0⟩], [⟨[], ⟨1, 2⟩⟩], 1⟩, ⟨[⟨0, 1⟩, ⟨1, 2⟩], [⟨[], ⟨1, 1⟩⟩], 1⟩]
  axioms := []
  init := [0, 0]
  goal := [⟨1, 1⟩]

theorem exDelivery_ok : exDelivery.PotentialOk := ⟨taskOK_wf (by decide), rfl, by decide, by decide⟩

/-- the hypotheses can be met, and the heuristic is not trivial: for every LP solver that meets its contract the value of the initial state is 2 (the cost of a plan is 3) -/
example : ∃ solve, MaxSolver solve ∧ ∀ solve, MaxSolver solve → ∃ pots, Optimised exDelivery (some 100) solve pots ∧ computeHeuristic pots exDelivery.init = some 2 := by
  obtain ⟨solve0, hsolve0⟩ := exists_maxSolver
  refine ⟨solve0, hsolve0, fun solve hsolve => ?_⟩
  have ht := exDelivery_ok
  obtain ⟨p, hp, _⟩ := C63_linear_program ht (some 100)
  have hs : exDelivery.ValidState exDelivery.init := ht.wf.init
  have hvar : ∀ {v : Nat} {d : Variable}, exDelivery.vars[v]? = some d → (v = 0 ∧ d = ⟨2, none, 0⟩) ∨ (v = 1 ∧ d = ⟨3, none, 0⟩) := by
    intro v d hd
    rcases v with _ | _ | v
    · simp [exDelivery] at hd; exact .inl ⟨rfl, hd.symm⟩
    · simp [exDelivery] at hd; exact .inr ⟨rfl, hd.symm⟩
    · simp [exDelivery] at hd
  have hup : ∀ x, p.Feasible x → potential (weight exDelivery x) exDelivery.init ≤ 2 := by
    intro x hx
    have hsol := (feasible_iff ht hp x).mp hx
    have g0 := hsol.goal 0 _ rfl
    have g1 := hsol.goal 1 _ rfl
    have u0 := hsol.undef 0 _ 0 rfl (by decide)
    have o2 := hsol.op ⟨[⟨0, 0⟩, ⟨1, 0⟩], [⟨[], ⟨1, 2⟩⟩], 1⟩ (by decide)
    have o3 := hsol.op ⟨[⟨0, 1⟩, ⟨1, 2⟩], [⟨[], ⟨1, 1⟩⟩], 1⟩ (by decide)
    rw [show goalV exDelivery 0 = 2 by decide] at g0
    rw [show goalV exDelivery 1 = 1 by decide] at g1
    simp only [List.map_cons, List.map_nil, List.sum_cons, List.sum_nil, show preV exDelivery ⟨[⟨0, 0⟩, ⟨1, 0⟩], [⟨[], ⟨1, 2⟩⟩], 1⟩ 1 = 0 by decide,
      show preV exDelivery ⟨[⟨0, 1⟩, ⟨1, 2⟩], [⟨[], ⟨1, 1⟩⟩], 1⟩ 1 = 2 by decide] at o2 o3
    have hpot : potential (weight exDelivery x) exDelivery.init = weight exDelivery x 0 0 + weight exDelivery x 1 0 := by simp [potential, exDelivery]
    rw [hpot]
    push_cast at o2 o3
    simp only at u0
    linarith [g0.2, g1.2]
  let w : Nat → Nat → Rat := fun v a => if v = 0 then (if a = 1 then -1 else 0) else if a = 1 then 0 else if a = 2 then 1 else 2
  have hw : Sol exDelivery (some 100) 0 w := by
    refine ⟨fun v d hd => ?_, fun v d a m hd ha hne hm => ?_, fun v d a hd ha => ?_, fun o ho => ?_⟩
    · rcases hvar hd with ⟨rfl, rfl⟩ | ⟨rfl, rfl⟩
      · rw [show goalV exDelivery 0 = 2 by decide]; norm_num [w]
      · rw [show goalV exDelivery 1 = 1 by decide]; norm_num [w]
    · cases hm
      simp only [w]
      split_ifs <;> norm_num
    · rcases hvar hd with ⟨rfl, rfl⟩ | ⟨rfl, rfl⟩ <;> simp only [w] <;> norm_num <;> split_ifs <;> norm_num
    · simp only [exDelivery, List.mem_cons, List.not_mem_nil, or_false] at ho
      rcases ho with rfl | rfl | rfl | rfl
      · simp only [List.map_cons, List.map_nil, List.sum_cons, List.sum_nil, show preV exDelivery ⟨[⟨0, 0⟩], [⟨[], ⟨0, 1⟩⟩], 1⟩ 0 = 0 by decide]; norm_num [w]
      · simp only [List.map_cons, List.map_nil, List.sum_cons, List.sum_nil, show preV exDelivery ⟨[⟨0, 1⟩], [⟨[], ⟨0, 0⟩⟩], 1⟩ 0 = 1 by decide]; norm_num [w]
      · simp only [List.map_cons, List.map_nil, List.sum_cons, List.sum_nil, show preV exDelivery ⟨[⟨0, 0⟩, ⟨1, 0⟩], [⟨[], ⟨1, 2⟩⟩], 1⟩ 1 = 0 by decide]; norm_num [w]
      · simp only [List.map_cons, List.map_nil, List.sum_cons, List.sum_nil, show preV exDelivery ⟨[⟨0, 1⟩, ⟨1, 2⟩], [⟨[], ⟨1, 1⟩⟩], 1⟩ 1 = 2 by decide]; norm_num [w]
  have hweight : ∀ v d a, exDelivery.vars[v]? = some d → a ≤ d.domain → w v a = weight exDelivery (encode exDelivery w) v a := fun v d a hd ha => (encode_weight hd ha).symm
  have hfeas : p.Feasible (encode exDelivery w) := (feasible_iff ht hp _).mpr (sol_congr ht hweight hw)
  have hlow : potential (weight exDelivery (encode exDelivery w)) exDelivery.init = 2 := by
    rw [← potential_congr (fun v d a hd ha => hweight v d a hd (Nat.le_of_lt ha)) hs]
    norm_num [potential, exDelivery, w]
  have htg : TargetOk exDelivery (.samples [exDelivery.init]) := by simpa [TargetOk] using hs
  rcases optimize_spec ht hsolve htg ⟨initialPotentials exDelivery, false⟩ hp with ⟨j1, _⟩ | ⟨_, x, j1, j2, j3⟩ | ⟨_, j1, _⟩
  · simp at j1
  · refine ⟨extract exDelivery x, ⟨[.samples [exDelivery.init]], true, by simpa using htg, by simp only [optimizeAll, j3]⟩, ?_⟩
    have e1 := hup x j1
    have e2 := j2 _ hfeas
    simp only [objective, List.map_cons, List.map_nil, List.sum_cons, List.sum_nil, hlow] at e2
    have e3 : potential (weight exDelivery x) exDelivery.init = 2 := by linarith
    unfold computeHeuristic getValue
    rw [sumPotentials_eq (extract_shape _ _) hs, extract_potential hs, e3]
    have hc : ⌈(2 : Rat) - 1 / 100⌉ = 2 := by
      rw [Int.ceil_eq_iff]
      norm_num
    simp only [hc]
    norm_num
  · refine absurd ⟨⟨_, hfeas⟩, 2, fun x hx => ?_⟩ j1
    simpa [objective] using hup x hx

end Verif.Potentials
