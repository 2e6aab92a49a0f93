import Verif.Model.LmCut
import Verif.Lemmas.QueueOps
import Verif.Lemmas.RelaxResults
import Mathlib.Tactic.Ring

/-
LM-cut: the first exploration computes h^max and supporters.
-/
namespace Verif.LmCut
open Verif.AdaptiveQueue Verif.Relax

/-! ### sums over numbers below `n` -/

def sumN (n : Nat) (f : Nat → Nat) : Nat := ((List.range n).map f).sum

theorem sumN_succ (n : Nat) (f : Nat → Nat) : sumN (n + 1) f = sumN n f + f n := by simp [sumN, List.range_succ]

theorem sumN_congr {n : Nat} {f g : Nat → Nat} (h : ∀ i, i < n → f i = g i) : sumN n f = sumN n g := by
  unfold sumN
  congr 1
  exact List.map_congr_left (fun i hi => h i (by simpa using hi))

theorem sumN_mono {n : Nat} {f g : Nat → Nat} (h : ∀ i, i < n → f i ≤ g i) : sumN n f ≤ sumN n g := by
  unfold sumN
  exact List.sum_le_sum (fun i hi => h i (by simpa using hi))

theorem sumN_upd {n p : Nat} (hp : p < n) (f : Nat → Nat) (x : Nat) : sumN n (upd f p x) + f p = sumN n f + x := by
  induction n with
  | zero => omega
  | succ n ih =>
    rw [sumN_succ, sumN_succ]
    by_cases e : p = n
    · subst e
      have : sumN p (upd f p x) = sumN p f := sumN_congr (fun i hi => by simp only [upd]; rw [if_neg (by omega)])
      rw [this]; simp [upd]; omega
    · have h1 := ih (by omega)
      have h2 : upd f p x n = f n := by simp only [upd]; rw [if_neg (fun h => e h.symm)]
      rw [h2]; omega

theorem le_sumN {n i : Nat} (hi : i < n) (f : Nat → Nat) : f i ≤ sumN n f := by
  induction n with
  | zero => omega
  | succ n ih =>
    rw [sumN_succ]
    by_cases e : i = n
    · subst e; omega
    · have := ih (by omega); omega

/-! ### definitions -/

/-- h^max of the proposition `p` is at most `n`, for operator costs `c` -/
inductive LLe (T : LTask) (c : Nat → Nat) (F : List Nat) : Nat → Nat → Prop where
  | init (p n) : p ∈ F → LLe T c F p n
  | op (i o m e n) : T.ops[i]? = some o → (∀ q ∈ o.pre, LLe T c F q m) → e ∈ o.eff → m + c i ≤ n → LLe T c F e n

theorem LLe.mono {T : LTask} {c : Nat → Nat} {F : List Nat} {p n : Nat} (h : LLe T c F p n) {k : Nat} (hk : n ≤ k) : LLe T c F p k := by
  cases h with
  | init _ _ h => exact .init p k h
  | op i o m _ _ h1 h2 h3 h4 => exact .op i o m p k h1 h2 h3 (by omega)

theorem LLe.cost_mono {T : LTask} {c c' : Nat → Nat} (hc : ∀ i, c' i ≤ c i) {F : List Nat} {p n : Nat} (h : LLe T c F p n) : LLe T c' F p n := by
  induction h with
  | init p n h => exact .init p n h
  | op i o m e n h1 _ h3 h4 ih => exact .op i o m e n h1 ih h3 (by have := hc i; omega)

structure LOk (T : LTask) : Prop where
  pre : ∀ o ∈ T.ops, o.pre ≠ []
  eff : ∀ o ∈ T.ops, ∀ e ∈ o.eff, e < T.numProps
  nodup : ∀ o ∈ T.ops, o.pre.Nodup

def St.Reached (st : St) (p : Nat) : Prop := st.status p ≠ .unreached

variable {T : LTask}

theorem mem_precondOf {p i : Nat} : i ∈ T.precondOf p ↔ ∃ o, T.ops[i]? = some o ∧ p ∈ o.pre := by
  simp only [LTask.precondOf, List.mem_flatMap, List.mem_map, List.mem_filter, beq_iff_eq, Prod.exists]
  constructor
  · rintro ⟨o, j, h1, q, ⟨h2, rfl⟩, rfl⟩
    exact ⟨o, by simpa using List.mem_zipIdx_iff_getElem?.mp h1, h2⟩
  · rintro ⟨o, h1, h2⟩
    exact ⟨o, i, List.mem_zipIdx_iff_getElem?.mpr (by simpa using h1), p, ⟨h2, rfl⟩, rfl⟩

theorem mem_effectOf {p i : Nat} : i ∈ T.effectOf p ↔ ∃ o, T.ops[i]? = some o ∧ p ∈ o.eff := by
  simp only [LTask.effectOf, List.mem_flatMap, List.mem_map, List.mem_filter, beq_iff_eq, Prod.exists]
  constructor
  · rintro ⟨o, j, h1, q, ⟨h2, rfl⟩, rfl⟩
    exact ⟨o, by simpa using List.mem_zipIdx_iff_getElem?.mp h1, h2⟩
  · rintro ⟨o, h1, h2⟩
    exact ⟨o, i, List.mem_zipIdx_iff_getElem?.mpr (by simpa using h1), p, ⟨h2, rfl⟩, rfl⟩

theorem nodup_precondOf (h : ∀ o ∈ T.ops, o.pre.Nodup) (p : Nat) : (T.precondOf p).Nodup := by
  unfold LTask.precondOf
  rw [List.nodup_flatMap]
  constructor
  · rintro ⟨o, i⟩ hi
    have ho : o ∈ T.ops := (List.mem_zipIdx hi).2.2 ▸ List.getElem_mem _
    have hl : (o.pre.filter (fun x => x == p)).length ≤ 1 := by
      have hc : (o.pre.filter (fun x => x == p)).length = o.pre.count p := by rw [List.count_eq_length_filter]
      rw [hc]
      exact List.nodup_iff_count_le_one.mp (h o ho) p
    match hm : o.pre.filter (fun x => x == p) with
    | [] => simp [hm]
    | [a] => simp [hm]
    | a :: b :: l => rw [hm] at hl; simp at hl
  · have hp : (T.ops.zipIdx).Pairwise (fun a b => a.2 < b.2) := by
      rw [List.pairwise_iff_getElem]
      intro i j hi hj hij
      simp only [List.getElem_zipIdx]; omega
    refine hp.imp ?_
    rintro ⟨o, i⟩ ⟨o', j⟩ hij
    simp only [Function.onFun, List.disjoint_left, List.mem_map, List.mem_filter]
    rintro x ⟨_, _, rfl⟩ ⟨_, _, h2⟩
    simp only at hij; omega

/-! ### enqueue -/

variable (H : StdHeap Nat)

theorem enqueue_spec {st : St} {bag : List (Entry Nat)} (hrep : Rep st.queue bag) {p c : Nat} (hp : p < T.numProps) :
    (st.enqueue H T p c = some st ∧ st.Reached p ∧ st.h p ≤ c) ∨
    ∃ q, st.enqueue H T p c = some { st with status := upd st.status p .reached, h := upd st.h p c, queue := q } ∧ Rep q ((c, p) :: bag) ∧ (st.Reached p → c < st.h p) := by
  unfold St.enqueue
  rw [if_pos hp]
  by_cases h : st.status p = .unreached ∨ st.h p > c
  · rw [if_pos h]
    obtain ⟨q, h1, h2⟩ := hrep.push H c p
    right
    refine ⟨q, by rw [h1]; rfl, h2, fun hr => ?_⟩
    rcases h with h | h
    · exact absurd h hr
    · exact h
  · rw [if_neg h]
    simp only [not_or] at h
    exact Or.inl ⟨rfl, h.1, by omega⟩

/-! ### the first exploration -/

/-- the sum of the costs of operators with a supporter -/
def fireSum (T : LTask) (c : Nat → Nat) (supp : Nat → Option Nat) : Nat := sumN T.ops.length (fun i => if (supp i).isSome then c i else 0)

structure First (T : LTask) (c : Nat → Nat) (F : List Nat) (D : List Nat) (d : Nat) (rem : List Nat) (bag : List (Entry Nat)) (st : St) : Prop where
  nodupD : D.Nodup
  nodup : bag.Nodup
  rep : Rep st.queue bag
  keys : ∀ k q, (k, q) ∈ bag → d ≤ k
  fresh : ∀ q, st.Reached q → q ∉ D → (st.h q, q) ∈ bag
  entry : ∀ k q, (k, q) ∈ bag → st.Reached q ∧ st.h q ≤ k ∧ (q ∈ D → st.h q < k)
  done : ∀ q ∈ D, st.Reached q ∧ st.h q ≤ d
  range : ∀ q, st.Reached q → q < T.numProps
  two : ∀ q, st.status q = .unreached ∨ st.status q = .reached
  sound : ∀ q, st.Reached q → LLe T c F q (st.h q)
  cost : st.cost = c
  unsat : ∀ i o, T.ops[i]? = some o → st.unsat i = ((o.pre.filter (fun q => decide (q ∉ D))).length : Int) + rem.count i
  bound : ∀ q, st.Reached q → st.h q ≤ fireSum T c st.supp

/-- costs only decrease, except for those of `D`, which stay the same -/
structure Low (D : List Nat) (st st' : St) : Prop where
  reach : ∀ q, st.Reached q → st'.Reached q
  le : ∀ q, st.Reached q → st'.h q ≤ st.h q
  eqD : ∀ q ∈ D, st'.h q = st.h q
  unsat : st'.unsat = st.unsat
  supp : st'.supp = st.supp
  suppCost : st'.suppCost = st.suppCost
  cost : st'.cost = st.cost

theorem Low.refl (D : List Nat) (st : St) : Low D st st := ⟨fun _ h => h, fun _ _ => Nat.le_refl _, fun _ _ => rfl, rfl, rfl, rfl, rfl⟩
theorem Low.trans {D : List Nat} {a b c : St} (h : Low D a b) (h' : Low D b c) : Low D a c :=
  ⟨fun q hq => h'.reach q (h.reach q hq), fun q hq => Nat.le_trans (h'.le q (h.reach q hq)) (h.le q hq), fun q hq => (h'.eqD q hq).trans (h.eqD q hq),
    h'.unsat.trans h.unsat, h'.supp.trans h.supp, h'.suppCost.trans h.suppCost, h'.cost.trans h.cost⟩

theorem reached_upd {st : St} {p c : Nat} {qu : Queue Nat} {q : Nat} : St.Reached { st with status := upd st.status p .reached, h := upd st.h p c, queue := qu } q ↔ q = p ∨ st.Reached q := by
  simp only [St.Reached, upd]
  split
  · rename_i e; simp [e]
  · rename_i e; simp [e]

theorem enqueue_first {c : Nat → Nat} {F D : List Nat} {d : Nat} {rem : List Nat} {bag : List (Entry Nat)} {st : St} (h : First T c F D d rem bag st) {p k : Nat} (hp : p < T.numProps)
    (hd : d ≤ k) (hs : LLe T c F p k) (hb : k ≤ fireSum T c st.supp) :
    ∃ st' bag', st.enqueue H T p k = some st' ∧ First T c F D d rem bag' st' ∧ Low D st st' ∧ st'.Reached p ∧ st'.h p ≤ k := by
  rcases enqueue_spec H h.rep (p := p) (c := k) hp with ⟨h1, h2, h3⟩ | ⟨q, h1, h2, h3⟩
  · exact ⟨st, bag, h1, h, Low.refl D st, h2, h3⟩
  · have hpD : p ∉ D := fun hin => by
      obtain ⟨e1, e2⟩ := h.done p hin
      have := h3 e1; omega
    refine ⟨_, (k, p) :: bag, h1, ?_, ?_, reached_upd.mpr (Or.inl rfl), by simp [upd]⟩
    · refine ⟨h.nodupD, ?_, h2, ?_, ?_, ?_, ?_, ?_, ?_, ?_, h.cost, h.unsat, ?_⟩
      · refine List.nodup_cons.mpr ⟨fun hin => ?_, h.nodup⟩
        obtain ⟨e1, e2, _⟩ := h.entry k p hin
        have := h3 e1; omega
      · intro k' q' hk
        rcases List.mem_cons.mp hk with e | e
        · simp only [Prod.mk.injEq] at e; omega
        · exact h.keys k' q' e
      · intro q' hr hD
        simp only [upd]
        split
        · rename_i e; subst e; simp
        · rename_i e
          exact List.mem_cons_of_mem _ (h.fresh q' ((reached_upd.mp hr).resolve_left e) hD)
      · intro k' q' hk
        rw [reached_upd]
        simp only [upd]
        rcases List.mem_cons.mp hk with e | e
        · simp only [Prod.mk.injEq] at e
          rw [if_pos e.2]
          exact ⟨Or.inl e.2, by omega, fun hD => absurd (e.2 ▸ hD) hpD⟩
        · obtain ⟨e1, e2, e3⟩ := h.entry k' q' e
          refine ⟨Or.inr e1, ?_⟩
          split
          · rename_i e4
            subst e4
            have := h3 e1
            exact ⟨by omega, fun hD => absurd hD hpD⟩
          · exact ⟨e2, e3⟩
      · intro q' hD
        obtain ⟨e1, e2⟩ := h.done q' hD
        refine ⟨reached_upd.mpr (Or.inr e1), ?_⟩
        simp only [upd]
        rw [if_neg (fun e : q' = p => hpD (e ▸ hD))]
        exact e2
      · intro q' hr
        rcases reached_upd.mp hr with e | e
        · rw [e]; exact hp
        · exact h.range q' e
      · intro q'
        simp only [upd]
        split
        · exact Or.inr rfl
        · exact h.two q'
      · intro q' hr
        simp only [upd]
        split
        · rename_i e; rw [e]; exact hs
        · rename_i e; exact h.sound q' ((reached_upd.mp hr).resolve_left e)
      · intro q' hr
        simp only [upd]
        split
        · exact hb
        · rename_i e; exact h.bound q' ((reached_upd.mp hr).resolve_left e)
    · refine ⟨fun q' hr => reached_upd.mpr (Or.inr hr), ?_, ?_, rfl, rfl, rfl, rfl⟩
      · intro q' hr
        simp only [upd]
        split
        · rename_i e; subst e; have := h3 hr; omega
        · exact Nat.le_refl _
      · intro q' hD
        simp only [upd]
        rw [if_neg (fun e : q' = p => hpD (e ▸ hD))]

theorem enqueueAll_first {c : Nat → Nat} {F D : List Nat} {d : Nat} {rem : List Nat} {k : Nat} (hd : d ≤ k) : ∀ (ps : List Nat) (bag : List (Entry Nat)) (st : St), First T c F D d rem bag st →
    (∀ p ∈ ps, p < T.numProps ∧ LLe T c F p k) → k ≤ fireSum T c st.supp →
    ∃ st' bag', St.enqueueAll H T k ps st = some st' ∧ First T c F D d rem bag' st' ∧ Low D st st' ∧ ∀ p ∈ ps, st'.Reached p ∧ st'.h p ≤ k
  | [], bag, st, h, _, _ => ⟨st, bag, rfl, h, Low.refl D st, by simp⟩
  | p :: ps, bag, st, h, hps, hb => by
    obtain ⟨h1, h2⟩ := hps p (by simp)
    obtain ⟨st1, bag1, k1, k2, k3, k4, k5⟩ := enqueue_first H h h1 hd h2 hb
    obtain ⟨st2, bag2, j1, j2, j3, j4⟩ := enqueueAll_first hd ps bag1 st1 k2 (fun q hq => hps q (by simp [hq])) (by rw [k3.supp]; exact hb)
    refine ⟨st2, bag2, ?_, j2, k3.trans j3, ?_⟩
    · unfold St.enqueueAll; rw [k1]; exact j1
    · intro q hq
      rcases List.mem_cons.mp hq with e | e
      · subst e; exact ⟨j3.reach _ k4, Nat.le_trans (j3.le _ k4) k5⟩
      · exact j4 q e

/-- the operator `i` has a supporter of maximal cost and its effects are reached -/
def Supported (T : LTask) (c : Nat → Nat) (st : St) (i : Nat) (o : ROp) : Prop :=
  ∃ q ∈ o.pre, st.supp i = some q ∧ st.suppCost i = st.h q ∧ (∀ r ∈ o.pre, st.Reached r ∧ st.h r ≤ st.h q) ∧ (∀ e ∈ o.eff, st.Reached e ∧ st.h e ≤ st.h q + c i) ∧ st.h q + c i < 2 ^ 31

/-- operators without unsatisfied preconditions are supported, others have no supporter -/
def Fired (T : LTask) (c : Nat → Nat) (D : List Nat) (st : St) : Prop :=
  ∀ i o, T.ops[i]? = some o → (st.unsat i = 0 → (∀ r ∈ o.pre, r ∈ D) ∧ Supported T c st i o) ∧ (st.unsat i ≠ 0 → st.supp i = none)

theorem Fired.low {c : Nat → Nat} {D : List Nat} {st st' : St} (h : Fired T c D st) (hl : Low D st st') : Fired T c D st' := by
  intro i o ho
  obtain ⟨h1, h2⟩ := h i o ho
  rw [hl.unsat, hl.supp]
  refine ⟨fun hu => ?_, h2⟩
  obtain ⟨hD, q, e1, e2, e3, e4, e5, e6⟩ := h1 hu
  refine ⟨hD, q, e1, by rw [hl.supp]; exact e2, by rw [hl.suppCost, hl.eqD q (hD q e1)]; exact e3, ?_, ?_, ?_⟩
  · intro r hr
    rw [hl.eqD q (hD q e1), hl.eqD r (hD r hr)]
    exact ⟨hl.reach r (e4 r hr).1, (e4 r hr).2⟩
  · intro e he
    rw [hl.eqD q (hD q e1)]
    exact ⟨hl.reach e (e5 e he).1, Nat.le_trans (hl.le e (e5 e he).1) (e5 e he).2⟩
  · rw [hl.eqD q (hD q e1)]; exact e6

theorem fireSum_le (c : Nat → Nat) (supp : Nat → Option Nat) : fireSum T c supp ≤ sumN T.ops.length c :=
  sumN_mono (fun i _ => by split <;> omega)

theorem fireSum_upd {c : Nat → Nat} {supp : Nat → Option Nat} {i p : Nat} (hi : i < T.ops.length) (h : supp i = none) : fireSum T c (upd supp i (some p)) = fireSum T c supp + c i := by
  unfold fireSum
  have e : (fun j => if (upd supp i (some p) j).isSome then c j else 0) = upd (fun j => if (supp j).isSome then c j else 0) i (c i) := by
    funext j
    simp only [upd]
    split
    · rename_i e; simp [e]
    · rfl
  rw [e]
  have := sumN_upd hi (fun j => if (supp j).isSome then c j else 0) (c i)
  simp only [h] at this
  simpa using this

theorem trigger1_spec (hT : LOk T) {c : Nat → Nat} (hS : sumN T.ops.length c < 2 ^ 31) {F D : List Nat} {p d : Nat} : ∀ (rem : List Nat) (bag : List (Entry Nat)) (st : St),
    (∀ i ∈ rem, ∃ o, T.ops[i]? = some o ∧ p ∈ o.pre) → p ∈ D → st.h p = d → First T c F D d rem bag st → Fired T c D st →
    ∃ st' bag', trigger1 H T p d rem st = some st' ∧ First T c F D d [] bag' st' ∧ Fired T c D st' ∧ (∀ q, st.Reached q → st'.Reached q ∧ st'.h q ≤ st.h q)
  | [], bag, st, _, _, _, h, hf => ⟨st, bag, rfl, h, hf, fun q hq => ⟨hq, Nat.le_refl _⟩⟩
  | i :: rem, bag, st, hrem, hpD, hpd, h, hf => by
    obtain ⟨o, ho, hpo⟩ := hrem i (by simp)
    have hi : i < T.ops.length := (List.getElem?_eq_some_iff.mp ho).1
    have hui := h.unsat i o ho
    have hunsat : ∀ j o', T.ops[j]? = some o' → upd st.unsat i (st.unsat i - 1) j = ((o'.pre.filter (fun q => decide (q ∉ D))).length : Int) + rem.count j := by
      intro j o' hj
      have := h.unsat j o' hj
      simp only [upd]
      split
      · rename_i e
        subst e
        rw [this, List.count_cons_self]; push_cast; ring
      · rename_i e
        rw [this, List.count_cons_of_ne (fun e' => e e'.symm)]
    unfold trigger1
    rw [ho]
    simp only
    by_cases hu : st.unsat i - 1 = 0
    · rw [if_pos hu]
      have hsn : st.supp i = none := (hf i o ho).2 (by omega)
      have hz := hunsat i o ho
      simp only [upd, if_true] at hz
      have hz0 : (o.pre.filter (fun q => decide (q ∉ D))).length = 0 := by omega
      have hall : ∀ r ∈ o.pre, r ∈ D := by
        intro r hr
        by_contra hn
        have : r ∈ o.pre.filter (fun q => decide (q ∉ D)) := List.mem_filter.mpr ⟨hr, by simp [hn]⟩
        rw [List.length_eq_zero_iff.mp hz0] at this; simp at this
      have hb := h.bound p (h.done p hpD).1
      have hfs := fireSum_upd (T := T) (c := c) (p := p) hi hsn
      have hle := fireSum_le (T := T) c (upd st.supp i (some p))
      rw [hpd] at hb
      have hlt : d + c i < 2 ^ 31 := by omega
      have hci : st.cost i = c i := by rw [h.cost]
      rw [hci, if_pos hlt]
      have h1 : First T c F D d rem bag { st with unsat := upd st.unsat i (st.unsat i - 1), supp := upd st.supp i (some p), suppCost := upd st.suppCost i d } :=
        ⟨h.nodupD, h.nodup, h.rep, h.keys, h.fresh, h.entry, h.done, h.range, h.two, h.sound, h.cost, hunsat, fun q hq => by
          have := h.bound q hq
          show st.h q ≤ fireSum T c (upd st.supp i (some p))
          omega⟩
      have hder : ∀ e ∈ o.eff, e < T.numProps ∧ LLe T c F e (d + c i) := by
        intro e he
        refine ⟨hT.eff o (List.mem_of_getElem? ho) e he, .op i o d e _ ho (fun q hq => ?_) he (Nat.le_refl _)⟩
        obtain ⟨e1, e2⟩ := h.done q (hall q hq)
        exact (h.sound q e1).mono e2
      obtain ⟨st1, bag1, k1, k2, k3, k4⟩ := enqueueAll_first H (Nat.le_add_right d (c i)) o.eff bag _ h1 hder (by show _ ≤ fireSum T c (upd st.supp i (some p)); omega)
      rw [k1]
      simp only
      have hp1 : st1.h p = d := by rw [k3.eqD p hpD]; exact hpd
      have hf1 : Fired T c D st1 := by
        intro j o' hj
        by_cases e : j = i
        · subst e
          rw [ho] at hj
          simp only [Option.some.injEq] at hj
          subst hj
          rw [k3.unsat, k3.supp]
          simp only [upd, if_true]
          refine ⟨fun _ => ⟨hall, p, hpo, by rw [k3.supp]; simp [upd], by rw [k3.suppCost, hp1]; simp [upd], ?_, ?_, by rw [hp1]; exact hlt⟩, fun hne => absurd hu hne⟩
          · intro r hr
            rw [hp1, k3.eqD r (hall r hr)]
            exact ⟨k3.reach r (h.done r (hall r hr)).1, (h.done r (hall r hr)).2⟩
          · intro e he
            rw [hp1]; exact k4 e he
        · have hj' := hf.low (st' := { st with queue := st.queue }) (Low.refl D st) j o' hj
          have hl2 : Fired T c D st → True := fun _ => trivial
          obtain ⟨g1, g2⟩ := hf j o' hj
          have eu : st1.unsat j = st.unsat j := by rw [k3.unsat]; simp [upd, e]
          have es : st1.supp j = st.supp j := by rw [k3.supp]; simp [upd, e]
          have ec : st1.suppCost j = st.suppCost j := by rw [k3.suppCost]; simp [upd, e]
          rw [eu, es]
          refine ⟨fun hz => ?_, g2⟩
          obtain ⟨hD, q, e1, e2, e3, e4, e5, e6⟩ := g1 hz
          have hq : st1.h q = st.h q := k3.eqD q (hD q e1)
          refine ⟨hD, q, e1, by rw [es]; exact e2, by rw [ec, hq]; exact e3, ?_, ?_, by rw [hq]; exact e6⟩
          · intro r hr
            rw [hq, k3.eqD r (hD r hr)]
            exact ⟨k3.reach r (e4 r hr).1, (e4 r hr).2⟩
          · intro x hx
            rw [hq]
            exact ⟨k3.reach x (e5 x hx).1, Nat.le_trans (k3.le x (e5 x hx).1) (e5 x hx).2⟩
      obtain ⟨st2, bag2, j1, j2, j3, j4⟩ := trigger1_spec hT hS rem bag1 st1 (fun j hj => hrem j (by simp [hj])) hpD hp1 k2 hf1
      refine ⟨st2, bag2, j1, j2, j3, fun q hq => ?_⟩
      have a := k3.reach q hq
      have b : st1.h q ≤ st.h q := k3.le q hq
      exact ⟨(j4 q a).1, Nat.le_trans (j4 q a).2 b⟩
    · rw [if_neg hu]
      have h1 : First T c F D d rem bag { st with unsat := upd st.unsat i (st.unsat i - 1) } :=
        ⟨h.nodupD, h.nodup, h.rep, h.keys, h.fresh, h.entry, h.done, h.range, h.two, h.sound, h.cost, hunsat, h.bound⟩
      have hf1 : Fired T c D { st with unsat := upd st.unsat i (st.unsat i - 1) } := by
        intro j o' hj
        obtain ⟨g1, g2⟩ := hf j o' hj
        by_cases e : j = i
        · subst e
          rw [ho] at hj
          simp only [Option.some.injEq] at hj
          subst hj
          simp only [upd, if_true]
          have hpos : st.unsat j ≠ 0 := by
            rw [hui, List.count_cons_self]; push_cast; omega
          exact ⟨fun h0 => absurd h0 hu, fun _ => g2 hpos⟩
        · simp only [upd, if_neg e]
          exact ⟨g1, g2⟩
      exact trigger1_spec hT hS rem bag _ (fun j hj => hrem j (by simp [hj])) hpD hpd h1 hf1

theorem first_pop_stale {c : Nat → Nat} {F D : List Nat} {d k p : Nat} {bag bag' : List (Entry Nat)} {st : St} {q : Queue Nat} (h : First T c F D d [] bag st)
    (hperm : bag.Perm ((k, p) :: bag')) (hrep : Rep q bag') (hlt : st.h p < k) : First T c F D d [] bag' { st with queue := q } := by
  refine ⟨h.nodupD, (List.nodup_cons.mp (hperm.nodup_iff.mp h.nodup)).2, hrep, ?_, ?_, ?_, h.done, h.range, h.two, h.sound, h.cost, h.unsat, h.bound⟩
  · exact fun k' q' hk => h.keys k' q' (hperm.symm.subset (List.mem_cons_of_mem _ hk))
  · intro r hr hD
    rcases List.mem_cons.mp (hperm.subset (h.fresh r hr hD)) with e | e
    · simp only [Prod.mk.injEq] at e
      obtain ⟨e1, rfl⟩ := e
      omega
    · exact e
  · exact fun k' q' hk => h.entry k' q' (hperm.symm.subset (List.mem_cons_of_mem _ hk))

theorem filter_cons_len {D : List Nat} {p : Nat} (hp : p ∉ D) : ∀ (l : List Nat), (l.filter (fun q => decide (q ∉ D))).length = (l.filter (fun q => decide (q ∉ p :: D))).length + l.count p
  | [] => rfl
  | a :: l => by
    have ih := filter_cons_len hp l
    by_cases e : a = p
    · subst e
      rw [List.count_cons_self, List.filter_cons, List.filter_cons, if_pos (by simp [hp]), if_neg (by simp)]
      simp only [List.length_cons]; omega
    · rw [List.count_cons_of_ne e, List.filter_cons, List.filter_cons]
      by_cases hd : a ∈ D
      · rw [if_neg (by simp [hd]), if_neg (by simp [hd])]; exact ih
      · rw [if_pos (by simp [hd]), if_pos (by simp [hd, e])]
        simp only [List.length_cons]; omega

theorem count_precondOf (T : LTask) (hnd : ∀ o ∈ T.ops, o.pre.Nodup) {i p : Nat} {o : ROp} (ho : T.ops[i]? = some o) : (T.precondOf p).count i = o.pre.count p := by
  have h1 := List.nodup_iff_count_le_one.mp (nodup_precondOf hnd p) i
  have h2 := List.nodup_iff_count_le_one.mp (hnd o (List.mem_of_getElem? ho)) p
  by_cases hp : p ∈ o.pre
  · have e1 := List.count_pos_iff.mpr (mem_precondOf.mpr ⟨o, ho, hp⟩)
    have e2 := List.count_pos_iff.mpr hp
    omega
  · rw [List.count_eq_zero.mpr hp, List.count_eq_zero.mpr]
    intro hin
    obtain ⟨o', ho', hp'⟩ := mem_precondOf.mp hin
    rw [ho] at ho'
    simp only [Option.some.injEq] at ho'
    exact hp (ho' ▸ hp')

theorem first_pop_fresh (hT : LOk T) {c : Nat → Nat} {F D : List Nat} {d k p : Nat} {bag bag' : List (Entry Nat)} {st : St} {q : Queue Nat} (h : First T c F D d [] bag st)
    (hperm : bag.Perm ((k, p) :: bag')) (hmin : ∀ e ∈ bag, k ≤ e.1) (hrep : Rep q bag') (hc : st.h p = k) :
    p ∉ D ∧ First T c F (p :: D) k (T.precondOf p) bag' { st with queue := q } := by
  have hin : (k, p) ∈ bag := hperm.symm.subset (by simp)
  obtain ⟨hr, _, h3⟩ := h.entry k p hin
  have hpD : p ∉ D := fun hD => by have := h3 hD; omega
  have hdk := h.keys k p hin
  have hnd := List.nodup_cons.mp (hperm.nodup_iff.mp h.nodup)
  refine ⟨hpD, List.nodup_cons.mpr ⟨hpD, h.nodupD⟩, hnd.2, hrep, ?_, ?_, ?_, ?_, h.range, h.two, h.sound, h.cost, ?_, h.bound⟩
  · exact fun k' q' hk => hmin (k', q') (hperm.symm.subset (List.mem_cons_of_mem _ hk))
  · intro r hr' hD
    simp only [List.mem_cons, not_or] at hD
    rcases List.mem_cons.mp (hperm.subset (h.fresh r hr' hD.2)) with e | e
    · simp only [Prod.mk.injEq] at e
      exact absurd e.2 hD.1
    · exact e
  · intro k' q' hk
    obtain ⟨e1, e2, e3⟩ := h.entry k' q' (hperm.symm.subset (List.mem_cons_of_mem _ hk))
    refine ⟨e1, e2, fun hD => ?_⟩
    rcases List.mem_cons.mp hD with e | e
    · subst e
      rcases Nat.lt_or_eq_of_le e2 with h4 | h4
      · exact h4
      · exfalso; rw [← hc, h4] at hnd; exact hnd.1 hk
    · exact e3 e
  · intro q' hD
    rcases List.mem_cons.mp hD with e | e
    · subst e; exact ⟨hr, by show st.h q' ≤ k; omega⟩
    · obtain ⟨e1, e2⟩ := h.done q' e
      exact ⟨e1, by show st.h q' ≤ k; omega⟩
  · intro i o ho
    show st.unsat i = _
    rw [h.unsat i o ho, filter_cons_len hpD, count_precondOf T hT.nodup ho]
    simp

theorem First.D_length {c : Nat → Nat} {F D : List Nat} {d : Nat} {rem : List Nat} {bag : List (Entry Nat)} {st : St} (h : First T c F D d rem bag st) : D.length ≤ T.numProps := by
  have hs : D.Subperm (List.range T.numProps) := List.subperm_of_subset h.nodupD (by
    intro q hq
    simpa using h.range q (h.done q hq).1)
  simpa using hs.length_le

theorem Fired.queue {c : Nat → Nat} {D : List Nat} {p : Nat} {st : St} {q : Queue Nat} (h : Fired T c D st) : Fired T c (p :: D) { st with queue := q } := by
  intro i o ho
  obtain ⟨h1, h2⟩ := h i o ho
  exact ⟨fun hu => ⟨fun r hr => List.mem_cons_of_mem _ ((h1 hu).1 r hr), (h1 hu).2⟩, h2⟩

theorem explore1_spec (hT : LOk T) {c : Nat → Nat} (hS : sumN T.ops.length c < 2 ^ 31) {F : List Nat} : ∀ (a b : Nat) (D : List Nat) (d : Nat) (bag : List (Entry Nat)) (st : St), T.numProps - D.length = a → bag.length = b →
    First T c F D d [] bag st → Fired T c D st → ∃ st' D' d', explore1 H T st = some st' ∧ First T c F D' d' [] [] st' ∧ Fired T c D' st' ∧ (∀ q, st.Reached q → st'.Reached q ∧ st'.h q ≤ st.h q) := by
  intro a
  induction a using Nat.strong_induction_on with
  | _ a iha =>
    intro b
    induction b using Nat.strong_induction_on with
    | _ b ihb =>
      intro D d bag st ha hb h hf
      rw [explore1]
      by_cases he : st.queue.empty = true
      · rw [if_pos he]
        have hbag := h.rep.empty.mp he
        subst hbag
        exact ⟨st, D, d, rfl, h, hf, fun q hq => ⟨hq, Nat.le_refl _⟩⟩
      · rw [if_neg he]
        have hne : bag ≠ [] := fun e => he (h.rep.empty.mpr e)
        obtain ⟨q, k, p, bag', h1, h2, h3, h4⟩ := h.rep.pop H hne
        have hin : (k, p) ∈ bag := h2.symm.subset (by simp)
        obtain ⟨_, hle, _⟩ := h.entry k p hin
        rw [h1]
        simp only
        by_cases hlt : st.h p < k
        · rw [if_pos hlt]
          have hf' : Fired T c D { st with queue := q } := hf
          exact ihb bag'.length (by have := h2.length_eq; simp only [List.length_cons] at this; omega) D d bag' _ ha rfl (first_pop_stale h h2 h4 hlt) hf'
        · rw [if_neg hlt]
          have hck : st.h p = k := by omega
          obtain ⟨hpD, h5⟩ := first_pop_fresh hT h h2 h3 h4 hck
          have hlen := h5.D_length
          simp only [List.length_cons] at hlen
          rw [hck]
          obtain ⟨st1, bag1, k1, k2, k3, k4⟩ := trigger1_spec H hT hS (T.precondOf p) bag' { st with queue := q } (fun i hi => mem_precondOf.mp hi) (by simp) hck h5 hf.queue
          rw [k1]
          simp only
          obtain ⟨st2, D2, d2, j1, j2, j3, j4⟩ := iha (T.numProps - (p :: D).length) (by simp only [List.length_cons]; omega) bag1.length (p :: D) k bag1 st1 rfl rfl k2 k3
          refine ⟨st2, D2, d2, j1, j2, j3, fun r hr => ?_⟩
          obtain ⟨e1, e2⟩ := k4 r hr
          exact ⟨(j4 r e1).1, Nat.le_trans (j4 r e1).2 e2⟩

/-- what the explorations guarantee -/
structure Stable (T : LTask) (c : Nat → Nat) (F : List Nat) (st : St) : Prop where
  rep : Rep st.queue []
  cost : st.cost = c
  range : ∀ q, st.Reached q → q < T.numProps
  sound : ∀ q, st.Reached q → LLe T c F q (st.h q)
  init : ∀ q ∈ F, st.Reached q ∧ st.h q = 0
  supp : ∀ i o q, T.ops[i]? = some o → st.supp i = some q → q ∈ o.pre ∧ st.suppCost i = st.h q ∧ (∀ r ∈ o.pre, st.Reached r ∧ st.h r ≤ st.h q) ∧
    (∀ e ∈ o.eff, st.Reached e ∧ st.h e ≤ st.h q + c i) ∧ st.h q + c i < 2 ^ 31
  full : ∀ i o, T.ops[i]? = some o → (∀ r ∈ o.pre, st.Reached r) → st.supp i ≠ none

theorem first_spec (hT : LOk T) {c : Nat → Nat} (hS : sumN T.ops.length c < 2 ^ 31) {facts : List Nat} (hF : ∀ q ∈ facts ++ [T.artPre], q < T.numProps) {st : St} {bag : List (Entry Nat)} (hrep : Rep st.queue bag)
    (hc : st.cost = c) : ∃ st', first H T facts st = some st' ∧ Stable T c (facts ++ [T.artPre]) st' ∧ ∀ q, st'.status q = .unreached ∨ st'.status q = .reached := by
  obtain ⟨q, h1, h2⟩ := hrep.clear
  unfold first setup
  rw [h1]
  simp only [Option.map_some]
  obtain ⟨st0, hst0⟩ : ∃ st0 : St, st0 = { st with status := fun _ => Status.unreached, unsat := fun i => (((T.ops[i]?).map (fun o => o.pre.length)).getD 0 : Nat), supp := fun _ => none, suppCost := fun _ => 2 ^ 31 - 1, queue := q } := ⟨_, rfl⟩
  have hnr : ∀ r, ¬st0.Reached r := by intro r; subst hst0; simp [St.Reached]
  have h0 : First T c (facts ++ [T.artPre]) [] 0 [] [] st0 := by
    refine ⟨by simp, by simp, by subst hst0; exact h2, by simp, fun r hr => absurd hr (hnr r), by simp, by simp, fun r hr => absurd hr (hnr r), by subst hst0; simp, fun r hr => absurd hr (hnr r), by subst hst0; exact hc, ?_, fun r hr => absurd hr (hnr r)⟩
    intro i o ho
    subst hst0
    simp [ho]
  rw [← hst0]
  obtain ⟨st1, bag1, k1, k2, k3, k4⟩ := enqueueAll_first H (Nat.le_refl 0) (facts ++ [T.artPre]) [] st0 h0 (fun p hp => ⟨hF p hp, .init p 0 hp⟩) (Nat.zero_le _)
  rw [k1]
  simp only
  have hf : Fired T c [] st1 := by
    intro i o ho
    rw [k3.unsat, k3.supp]
    refine ⟨fun hz => ?_, fun _ => by subst hst0; rfl⟩
    exfalso
    have := hT.pre o (List.mem_of_getElem? ho)
    subst hst0
    simp [ho] at hz
    exact this hz
  obtain ⟨st2, D, d, j1, j2, j3, j4⟩ := explore1_spec H hT hS _ _ [] 0 bag1 st1 rfl rfl k2 hf
  have hD : ∀ r, st2.Reached r → r ∈ D := by
    intro r hr
    by_contra hn
    have := j2.fresh r hr hn
    simp at this
  refine ⟨st2, j1, ⟨j2.rep, j2.cost, j2.range, j2.sound, ?_, ?_, ?_⟩, j2.two⟩
  · intro r hr
    obtain ⟨e1, e2⟩ := k4 r hr
    obtain ⟨e3, e4⟩ := j4 r e1
    exact ⟨e3, by omega⟩
  · intro i o r ho hs
    have hu : st2.unsat i = 0 := by
      by_contra hn
      have := (j3 i o ho).2 hn
      rw [hs] at this; simp at this
    obtain ⟨_, r', e1, e2, e3, e4, e5, e6⟩ := (j3 i o ho).1 hu
    rw [hs] at e2
    simp only [Option.some.injEq] at e2
    subst e2
    exact ⟨e1, e3, e4, e5, e6⟩
  · intro i o ho hr hn
    have hu : st2.unsat i = 0 := by
      rw [j2.unsat i o ho]
      have hnil : o.pre.filter (fun q => decide (q ∉ D)) = [] := by
        rw [List.filter_eq_nil_iff]
        intro r hr'
        simp [hD r (hr r hr')]
      rw [hnil]; rfl
    obtain ⟨_, r', _, e2, _⟩ := (j3 i o ho).1 hu
    rw [hn] at e2; simp at e2

end Verif.LmCut
