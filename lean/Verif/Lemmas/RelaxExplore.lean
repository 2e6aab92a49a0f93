import Verif.Model.Relaxation
import Verif.Lemmas.QueueOps
import Mathlib.Data.List.Perm.Subperm
import Mathlib.Data.List.Nodup
import Mathlib.Algebra.Order.Group.Nat
import Mathlib.Algebra.Order.BigOperators.Group.List

/-
The relaxed exploration computes the least derivation costs.
-/
namespace Verif.Relax
open Verif.AdaptiveQueue

/-- the cost of a unary operator whose preconditions have the given costs -/
def comb : Kind → Nat → List Nat → Nat
  | .max, b, l => b + l.foldr Nat.max 0
  | .add, b, l => Nat.min maxCost (b + l.sum)

/-- `p` can be derived from `S` with cost `n` -/
inductive Der (K : Kind) (ops : List UnaryOp) (S : Nat → Prop) : Nat → Nat → Prop where
  | state (p) : S p → Der K ops S p 0
  | op (o) (m : Nat → Nat) : o ∈ ops → (∀ q ∈ o.pre, Der K ops S q (m q)) → Der K ops S o.eff (comb K o.base (o.pre.map m))

/-- base costs that are not clamped -/
def OkBase (K : Kind) (b : Nat) : Prop := K = .add → b ≤ maxCost

theorem comb_nil {K : Kind} {b : Nat} (h : OkBase K b) : comb K b [] = b := by
  cases K with
  | max => rfl
  | add => have := h rfl; simp only [comb, List.sum_nil, Nat.add_zero]; exact Nat.min_eq_right this

theorem foldr_max_append (l : List Nat) (c : Nat) : (l ++ [c]).foldr Nat.max 0 = Nat.max (l.foldr Nat.max 0) c := by
  induction l with
  | nil => simp [Nat.max_comm]
  | cons a l ih => simp only [List.cons_append, List.foldr_cons, ih]; exact (Nat.max_assoc _ _ _).symm

theorem foldr_max_le {l : List Nat} {n : Nat} : l.foldr Nat.max 0 ≤ n ↔ ∀ c ∈ l, c ≤ n := by
  induction l with
  | nil => simp
  | cons a l ih =>
    simp only [List.foldr_cons, List.mem_cons, forall_eq_or_imp]
    rw [show Nat.max a (l.foldr Nat.max 0) = max a (l.foldr Nat.max 0) from rfl, max_le_iff, ih]

theorem accum_comb {K : Kind} {b c v : Nat} {l : List Nat} (h : accum K b (comb K b l) c = some v) : v = comb K b (l ++ [c]) := by
  cases K with
  | max =>
    simp only [accum] at h
    split at h
    · simp only [Option.some.injEq] at h
      rw [← h]
      simp only [comb, foldr_max_append]
      show max _ _ = _ + max _ _
      omega
    · simp at h
  | add =>
    simp only [accum] at h
    split at h
    · simp only [Option.some.injEq] at h
      rw [← h]
      simp only [comb, List.sum_append, List.sum_singleton]
      show min _ (min _ _ + _) = min _ _
      omega
    · simp at h

theorem comb_ge {K : Kind} {b c : Nat} {l : List Nat} (hc : c ∈ l) (h : OkBase K c) : c ≤ comb K b l := by
  cases K with
  | max =>
    have := (foldr_max_le (l := l)).mp (Nat.le_refl _) c hc
    simp only [comb]; omega
  | add =>
    have h1 := h rfl
    have h2 := List.single_le_sum (l := l) (by simp) c hc
    simp only [comb]
    show c ≤ min _ _
    omega

theorem comb_ok (K : Kind) (b : Nat) (l : List Nat) : OkBase K (comb K b l) := by
  rintro rfl
  exact Nat.min_le_left _ _

theorem comb_perm {K : Kind} {b : Nat} {l l' : List Nat} (h : l.Perm l') : comb K b l = comb K b l' := by
  cases K with
  | max =>
    simp only [comb]
    congr 1
    apply Nat.le_antisymm
    · exact foldr_max_le.mpr (fun c hc => foldr_max_le.mp (Nat.le_refl _) c (h.subset hc))
    · exact foldr_max_le.mpr (fun c hc => foldr_max_le.mp (Nat.le_refl _) c (h.symm.subset hc))
  | add => simp only [comb, h.sum_eq]

theorem comb_mono {K : Kind} {b b' : Nat} {pre pre' : List Nat} {m m' : Nat → Nat} (hb : b' ≤ b) (hs : pre'.Subperm pre) (hm : ∀ q ∈ pre', m' q ≤ m q) :
    comb K b' (pre'.map m') ≤ comb K b (pre.map m) := by
  cases K with
  | max =>
    simp only [comb]
    have : (pre'.map m').foldr Nat.max 0 ≤ (pre.map m).foldr Nat.max 0 := by
      refine foldr_max_le.mpr ?_
      intro c hc
      obtain ⟨q, hq, rfl⟩ := List.mem_map.mp hc
      have := foldr_max_le.mp (Nat.le_refl ((pre.map m).foldr Nat.max 0)) (m q) (List.mem_map_of_mem (hs.subset hq))
      have := hm q hq
      omega
    omega
  | add =>
    simp only [comb]
    have h1 : (pre'.map m').sum ≤ (pre'.map m).sum := List.sum_le_sum (fun q hq => hm q hq)
    have h2 : (pre'.map m).sum ≤ (pre.map m).sum := by
      obtain ⟨l, hl, hsub⟩ := hs
      rw [← (hl.map m).sum_eq]
      exact (hsub.map m).sum_le_sum (by simp)
    show min _ _ ≤ min _ _
    omega

section
variable (H : StdHeap Nat) (K : Kind) (R : RTask)

/-- the cost of a proposition -/
def RSt.val (st : RSt) (q : Nat) : Nat := (st.cost q).getD 0

/-- costs and queue: `D` are the propositions that have been processed (the most recent one first), `d`
is a lower bound on what comes -/
structure Core (D : List Nat) (d : Nat) (bag : List (Entry Nat)) (st : RSt) : Prop where
  nodupD : D.Nodup
  nodup : bag.Nodup
  rep : Rep st.queue bag
  keys : ∀ k q, (k, q) ∈ bag → d ≤ k
  fresh : ∀ q c, st.cost q = some c → q ∉ D → (c, q) ∈ bag
  entry : ∀ k q, (k, q) ∈ bag → ∃ c, st.cost q = some c ∧ c ≤ k ∧ (q ∈ D → c < k)
  done : ∀ q ∈ D, ∃ c, st.cost q = some c ∧ c ≤ d
  range : ∀ q c, st.cost q = some c → q < R.numProps

variable {K R}

/-- what enqueue_if_necessary does -/
theorem enqueue_core {D : List Nat} {d : Nat} {bag : List (Entry Nat)} {st : RSt} (h : Core R D d bag st) {p c : Nat} (hp : p < R.numProps) (hd : d ≤ c) (op : Option Nat) :
    ∃ st' bag', st.enqueue H R p c op = some st' ∧ Core R D d bag' st' ∧ st'.opCost = st.opCost ∧ st'.unsat = st.unsat ∧
      ((st'.cost = st.cost ∧ st'.reached = st.reached ∧ ∃ c0, st.cost p = some c0 ∧ c0 ≤ c) ∨
       (p ∉ D ∧ (∀ c0, st.cost p = some c0 → c < c0) ∧ st'.cost = upd st.cost p (some c) ∧ st'.reached = upd st.reached p op)) := by
  unfold RSt.enqueue
  rw [if_pos hp]
  have hupd : (∀ c0, st.cost p = some c0 → c < c0) → ∃ st' bag', st.update H p c op = some st' ∧ Core R D d bag' st' ∧ st'.opCost = st.opCost ∧ st'.unsat = st.unsat ∧
       (p ∉ D ∧ (∀ c0, st.cost p = some c0 → c < c0) ∧ st'.cost = upd st.cost p (some c) ∧ st'.reached = upd st.reached p op) := by
    intro hlt
    have hpD : p ∉ D := by
      intro hin
      obtain ⟨c0, h1, h2⟩ := h.done p hin
      have := hlt c0 h1
      omega
    obtain ⟨q', hq, hr⟩ := h.rep.push H c p
    unfold RSt.update
    rw [hq]
    refine ⟨_, (c, p) :: bag, rfl, ?_, rfl, rfl, hpD, hlt, rfl, rfl⟩
    refine ⟨h.nodupD, ?_, hr, ?_, ?_, ?_, ?_, ?_⟩
    · refine List.nodup_cons.mpr ⟨fun hin => ?_, h.nodup⟩
      obtain ⟨c0, h1, h2, _⟩ := h.entry c p hin
      have := hlt c0 h1
      omega
    · intro k q hk
      rcases List.mem_cons.mp hk with hk | hk
      · simp only [Prod.mk.injEq] at hk; omega
      · exact h.keys k q hk
    · intro q c' hc' hq
      simp only [upd] at hc'
      split at hc'
      · rename_i e
        simp only [Option.some.injEq] at hc'
        rw [e, hc']; simp
      · exact List.mem_cons_of_mem _ (h.fresh q c' hc' hq)
    · intro k q hk
      simp only [upd]
      rcases List.mem_cons.mp hk with hk | hk
      · simp only [Prod.mk.injEq] at hk
        rw [if_pos hk.2]
        exact ⟨c, rfl, by omega, fun hin => absurd (hk.2 ▸ hin) hpD⟩
      · obtain ⟨c0, h1, h2, h3⟩ := h.entry k q hk
        split
        · rename_i e
          subst e
          have := hlt c0 h1
          exact ⟨c, rfl, by omega, fun hin => absurd hin hpD⟩
        · exact ⟨c0, h1, h2, h3⟩
    · intro q hq
      simp only [upd]
      rw [if_neg (fun e : q = p => hpD (e ▸ hq))]
      exact h.done q hq
    · intro q c' hc'
      simp only [upd] at hc'
      split at hc'
      · rename_i e; rw [e]; exact hp
      · exact h.range q c' hc'
  cases hc : st.cost p with
  | none =>
    obtain ⟨st', bag', h1, h2, h3, h4, h5⟩ := hupd (by simp [hc])
    refine ⟨st', bag', h1, h2, h3, h4, Or.inr ?_⟩
    rw [← hc]; exact h5
  | some old =>
    simp only
    by_cases hgt : old > c
    · rw [if_pos hgt]
      obtain ⟨st', bag', h1, h2, h3, h4, h5⟩ := hupd (by rw [hc]; intro c0 e; simp only [Option.some.injEq] at e; omega)
      refine ⟨st', bag', h1, h2, h3, h4, Or.inr ?_⟩
      rw [← hc]; exact h5
    · rw [if_neg hgt]
      exact ⟨st, bag, rfl, h, rfl, rfl, Or.inl ⟨rfl, rfl, old, rfl, by omega⟩⟩

/-- `q` has been taken into account for the operator `i`, while the operators in `rem` are still to
be treated for the proposition `p` -/
def Fin (D : List Nat) (p : Nat) (rem : List Nat) (i q : Nat) : Prop := q ∈ D ∧ ¬(q = p ∧ i ∈ rem)

instance (D : List Nat) (p : Nat) (rem : List Nat) (i q : Nat) : Decidable (Fin D p rem i q) := inferInstanceAs (Decidable (_ ∧ _))

/-- where the cost of a proposition comes from -/
def Origin (K : Kind) (R : RTask) (S : Nat → Prop) (D : List Nat) (st : RSt) (q c : Nat) : Prop :=
  (S q ∧ c = 0 ∧ st.reached q = none) ∨
  ∃ i o, st.reached q = some i ∧ R.ops[i]? = some o ∧ o.eff = q ∧ (∀ r ∈ o.pre, r ∈ D ∧ ∀ D1 D2, D = D1 ++ q :: D2 → r ∈ D2) ∧ c = comb K o.base (o.pre.map st.val)

/-- the invariant of the exploration; `n` operators and the propositions `F` of the state have been
set up -/
structure XInv (K : Kind) (R : RTask) (S : Nat → Prop) (n : Nat) (F : List Nat) (D : List Nat) (p : Nat) (rem : List Nat) (d : Nat) (bag : List (Entry Nat)) (st : RSt) : Prop where
  core : Core R D d bag st
  ok : ∀ q c, st.cost q = some c → OkBase K c
  unsat : ∀ i o, i < n → R.ops[i]? = some o → st.unsat i = ((o.pre.filter (fun q => decide (¬Fin D p rem i q))).length : Int)
  opCost : ∀ i o, i < n → R.ops[i]? = some o → st.opCost i = comb K o.base ((o.pre.filter (fun q => decide (Fin D p rem i q))).map st.val)
  state : ∀ q ∈ F, st.cost q = some 0
  ready : ∀ i o, i < n → R.ops[i]? = some o → (∀ q ∈ o.pre, Fin D p rem i q) → ∃ c, st.cost o.eff = some c ∧ c ≤ comb K o.base (o.pre.map st.val)
  origin : ∀ q c, st.cost q = some c → Origin K R S D st q c
  cur : rem ≠ [] → p ∈ D ∧ st.cost p = some d

/-- the static data is consistent -/
structure ROk (K : Kind) (R : RTask) : Prop where
  eff : ∀ o ∈ R.ops, o.eff < R.numProps
  nodup : ∀ o ∈ R.ops, o.pre.Nodup
  base : ∀ o ∈ R.ops, OkBase K o.base

/-- the costs of processed propositions do not change -/
theorem val_upd {D : List Nat} {st st' : RSt} {p : Nat} {c : Option Nat} (hp : p ∉ D) (h : st'.cost = upd st.cost p c) : ∀ q ∈ D, st'.val q = st.val q := by
  intro q hq
  unfold RSt.val
  rw [h]
  simp only [upd]
  rw [if_neg (fun e : q = p => hp (e ▸ hq))]

theorem map_val {l : List Nat} {st st' : RSt} (h : ∀ q ∈ l, st'.val q = st.val q) : l.map st'.val = l.map st.val := List.map_congr_left h

/-- enqueuing the effect of an operator or a proposition of the state preserves the invariant -/
theorem enqueue_inv {S : Nat → Prop} {n : Nat} {F D : List Nat} {p : Nat} {rem : List Nat} {d : Nat} {bag : List (Entry Nat)} {st : RSt} (h : XInv K R S n F D p rem d bag st)
    {q c : Nat} (hq : q < R.numProps) (hd : d ≤ c) (hok : OkBase K c) (op : Option Nat)
    (horig : (S q ∧ c = 0 ∧ op = none) ∨ ∃ i o, op = some i ∧ R.ops[i]? = some o ∧ o.eff = q ∧ (∀ r ∈ o.pre, r ∈ D) ∧ c = comb K o.base (o.pre.map st.val)) :
    ∃ st' bag', st.enqueue H R q c op = some st' ∧ XInv K R S n F D p rem d bag' st' ∧ st'.opCost = st.opCost ∧ st'.unsat = st.unsat ∧ (∃ c0, st'.cost q = some c0 ∧ c0 ≤ c) ∧
      (∀ r ∈ D, st'.val r = st.val r) := by
  obtain ⟨st', bag', h1, h2, h3, h4, h5⟩ := enqueue_core H h.core hq hd op
  rcases h5 with ⟨e1, e2, c0, e3, e4⟩ | ⟨e0, e1, e2, e3⟩
  · refine ⟨st', bag', h1, ?_, h3, h4, ⟨c0, by rw [e1]; exact e3, e4⟩, fun r _ => by simp [RSt.val, e1]⟩
    have hv : st'.val = st.val := by funext r; simp [RSt.val, e1]
    refine ⟨h2, by rw [e1]; exact h.ok, by rw [h4]; exact h.unsat, by rw [h3, hv]; exact h.opCost, by rw [e1]; exact h.state, by rw [e1, hv]; exact h.ready, ?_, by rw [e1]; exact h.cur⟩
    rw [e1]
    intro r c' hr
    have := h.origin r c' hr
    unfold Origin at this ⊢
    rw [e2, hv]; exact this
  · have hv := val_upd e0 e2
    refine ⟨st', bag', h1, ?_, h3, h4, ⟨c, by simp [e2, upd], Nat.le_refl _⟩, hv⟩
    refine ⟨h2, ?_, by rw [h4]; exact h.unsat, ?_, ?_, ?_, ?_, ?_⟩
    · intro r c' hr
      rw [e2] at hr
      simp only [upd] at hr
      split at hr
      · simp only [Option.some.injEq] at hr; rw [← hr]; exact hok
      · exact h.ok r c' hr
    · intro i o hi ho
      rw [h3, h.opCost i o hi ho, map_val]
      intro r hr
      simp only [List.mem_filter, decide_eq_true_eq] at hr
      exact (hv r hr.2.1).symm
    · intro r hr
      rw [e2]
      simp only [upd]
      split
      · rename_i e
        subst e
        have := e1 0 (h.state _ hr)
        omega
      · exact h.state r hr
    · intro i o hi ho hall
      obtain ⟨c0, k1, k2⟩ := h.ready i o hi ho hall
      rw [map_val (fun r hr => hv r (hall r hr).1), e2]
      simp only [upd]
      split
      · rename_i e
        rw [e] at k1
        have := e1 c0 k1
        exact ⟨c, rfl, by omega⟩
      · exact ⟨c0, k1, k2⟩
    · intro r c' hr
      rw [e2] at hr
      simp only [upd] at hr
      split at hr
      · rename_i e
        subst e
        simp only [Option.some.injEq] at hr
        subst hr
        unfold Origin
        rw [e3]
        simp only [upd, if_true]
        rcases horig with ⟨a1, a2, a3⟩ | ⟨i, o, a1, a2, a3, a4, a5⟩
        · left; exact ⟨a1, a2, a3⟩
        · right
          refine ⟨i, o, a1, a2, a3, fun x hx => ⟨a4 x hx, ?_⟩, ?_⟩
          · intro D1 D2 e
            exact absurd (by rw [e]; simp) e0
          · rw [a5, map_val (fun x hx => (hv x (a4 x hx)))]
      · rename_i hne
        have := h.origin r c' hr
        unfold Origin at this ⊢
        rw [e3]
        simp only [upd, if_neg hne]
        rcases this with a | ⟨i, o, a1, a2, a3, a4, a5⟩
        · left; exact a
        · right
          refine ⟨i, o, a1, a2, a3, a4, ?_⟩
          rw [a5, map_val (fun x hx => hv x (a4 x hx).1)]
    · intro hr
      obtain ⟨k1, k2⟩ := h.cur hr
      refine ⟨k1, ?_⟩
      rw [e2]
      simp only [upd]
      rw [if_neg (fun e : p = q => e0 (e ▸ k1))]
      exact k2

/-! ### setup -/

theorem setupOps_inv (hR : ROk K R) {S : Nat → Prop} : ∀ (os : List UnaryOp) (n : Nat) (bag : List (Entry Nat)) (st : RSt), R.ops.drop n = os →
    XInv K R S n [] [] 0 [] 0 bag st → ∃ st' bag', setupOps H R os n st = some st' ∧ XInv K R S R.ops.length [] [] 0 [] 0 bag' st'
  | [], n, bag, st, he, h => by
    refine ⟨st, bag, rfl, ?_⟩
    have hn : R.ops.length ≤ n := by simpa using he
    exact ⟨h.core, h.ok, fun i o hi ho => h.unsat i o (by omega) ho, fun i o hi ho => h.opCost i o (by omega) ho, h.state, fun i o hi ho => h.ready i o (by omega) ho, h.origin, h.cur⟩
  | o :: os, n, bag, st, he, h => by
    have hn : n < R.ops.length := by
      by_contra hge
      rw [List.drop_eq_nil_of_le (by omega)] at he; simp at he
    have ho : R.ops[n]? = some o := by
      have := congrArg List.head? he
      rw [List.head?_drop] at this
      simpa using this
    have hdrop : R.ops.drop (n + 1) = os := by
      rw [← List.tail_drop, he]; rfl
    unfold setupOps
    simp only
    have hbase : ∀ i o', i < n + 1 → R.ops[i]? = some o' → upd st.unsat n (o.pre.length : Int) i = ((o'.pre.filter (fun q => decide (¬Fin [] 0 [] i q))).length : Int) := by
      intro i o' hi ho'
      simp only [upd]
      split
      · rename_i e
        subst e
        rw [ho] at ho'
        simp only [Option.some.injEq] at ho'
        subst ho'
        simp [Fin]
      · exact h.unsat i o' (by omega) ho'
    have hcost : ∀ i o', i < n + 1 → R.ops[i]? = some o' → upd st.opCost n o.base i = comb K o'.base ((o'.pre.filter (fun q => decide (Fin [] 0 [] i q))).map st.val) := by
      intro i o' hi ho'
      simp only [upd]
      split
      · rename_i e
        subst e
        rw [ho] at ho'
        simp only [Option.some.injEq] at ho'
        subst ho'
        have : o.pre.filter (fun q => decide (Fin [] 0 [] i q)) = [] := by simp [Fin]
        rw [this, List.map_nil, comb_nil (hR.base o (List.mem_of_getElem? ho))]
      · exact h.opCost i o' (by omega) ho'
    have hi : XInv K R S n [] [] 0 [] 0 bag { st with unsat := upd st.unsat n o.pre.length, opCost := upd st.opCost n o.base } := by
      refine ⟨⟨h.core.nodupD, h.core.nodup, h.core.rep, h.core.keys, h.core.fresh, h.core.entry, h.core.done, h.core.range⟩, h.ok, fun i o' hi ho' => hbase i o' (by omega) ho',
        fun i o' hi ho' => ?_, h.state, h.ready, h.origin, h.cur⟩
      exact hcost i o' (by omega) ho'
    by_cases hp : o.pre.length = 0
    · rw [if_pos hp]
      have hpre : o.pre = [] := List.length_eq_zero_iff.mp hp
      obtain ⟨st', bag', k1, k2, k3, k4, k5, k6⟩ := enqueue_inv H hi (hR.eff o (List.mem_of_getElem? ho)) (Nat.zero_le o.base) (hR.base o (List.mem_of_getElem? ho)) (some n)
        (Or.inr ⟨n, o, rfl, ho, rfl, by simp [hpre], by rw [hpre, List.map_nil, comb_nil (hR.base o (List.mem_of_getElem? ho))]⟩)
      rw [k1]
      simp only
      refine setupOps_inv hR os (n + 1) bag' st' hdrop ⟨k2.core, k2.ok, ?_, ?_, k2.state, ?_, k2.origin, k2.cur⟩
      · intro i o' hi' ho'
        rw [k4]; exact hbase i o' hi' ho'
      · intro i o' hi' ho'
        rw [k3]
        simp only
        rw [hcost i o' hi' ho']
        have : o'.pre.filter (fun q => decide (Fin [] 0 [] i q)) = [] := by simp [Fin]
        rw [this]; rfl
      · intro i o' hi' ho' hall
        by_cases e : i = n
        · subst e
          rw [ho] at ho'
          simp only [Option.some.injEq] at ho'
          subst ho'
          obtain ⟨c0, j1, j2⟩ := k5
          refine ⟨c0, j1, ?_⟩
          rw [hpre, List.map_nil, comb_nil (hR.base o (List.mem_of_getElem? ho))]
          exact j2
        · exact k2.ready i o' (by omega) ho' hall
    · rw [if_neg hp]
      refine setupOps_inv hR os (n + 1) bag _ hdrop ⟨hi.core, hi.ok, hbase, hcost, hi.state, ?_, hi.origin, hi.cur⟩
      intro i o' hi' ho' hall
      by_cases e : i = n
      · subst e
        rw [ho] at ho'
        simp only [Option.some.injEq] at ho'
        subst ho'
        exfalso
        obtain ⟨q, hq⟩ := List.exists_mem_of_length_pos (Nat.pos_of_ne_zero hp)
        have := (hall q hq).1
        simp at this
      · exact hi.ready i o' (by omega) ho' hall

theorem setupState_inv {S : Nat → Prop} : ∀ (ps F : List Nat) (bag : List (Entry Nat)) (st : RSt), (∀ q ∈ ps, q < R.numProps ∧ S q) →
    XInv K R S R.ops.length F [] 0 [] 0 bag st → ∃ st' bag', setupState H R ps st = some st' ∧ XInv K R S R.ops.length (F ++ ps) [] 0 [] 0 bag' st'
  | [], F, bag, st, _, h => ⟨st, bag, rfl, by simpa using h⟩
  | q :: ps, F, bag, st, hp, h => by
    obtain ⟨h1, h2⟩ := hp q (by simp)
    obtain ⟨st', bag', k1, k2, _, _, ⟨c0, k3, k4⟩, _⟩ := enqueue_inv H h h1 (Nat.le_refl 0) (fun _ => Nat.zero_le _) none (Or.inl ⟨h2, rfl, rfl⟩)
    unfold setupState
    rw [k1]
    simp only
    have h0 : st'.cost q = some 0 := by rw [k3]; congr 1; omega
    obtain ⟨st2, bag2, j1, j2⟩ := setupState_inv ps (F ++ [q]) bag' st' (fun r hr => hp r (by simp [hr]))
      ⟨k2.core, k2.ok, k2.unsat, k2.opCost, by intro r hr; rcases List.mem_append.mp hr with hr | hr; exact k2.state r hr; simp only [List.mem_singleton] at hr; rw [hr]; exact h0, k2.ready, k2.origin, k2.cur⟩
    exact ⟨st2, bag2, j1, by simpa using j2⟩

theorem setup_inv (hR : ROk K R) {facts : List Nat} (hf : ∀ q ∈ facts, q < R.numProps) {st : RSt} {bag0 : List (Entry Nat)} (h0 : Rep st.queue bag0) :
    ∃ st' bag', setup H R facts st = some st' ∧ XInv K R (· ∈ facts) R.ops.length facts [] 0 [] 0 bag' st' := by
  obtain ⟨q, hq, hr⟩ := h0.clear
  unfold setup
  rw [hq]
  simp only
  have hi : XInv K R (· ∈ facts) 0 [] [] 0 [] 0 [] { st with cost := fun _ => none, queue := q } := by
    refine ⟨⟨by simp, by simp, hr, by simp, by simp, by simp, by simp, by simp⟩, by simp, by simp, by simp, by simp, by simp, by simp, by simp⟩
  obtain ⟨st1, bag1, k1, k2⟩ := setupOps_inv H hR R.ops 0 [] _ (by simp) hi
  rw [k1]
  simp only
  obtain ⟨st2, bag2, j1, j2⟩ := setupState_inv H facts [] bag1 st1 (fun q hq => ⟨hf q hq, hq⟩) k2
  exact ⟨st2, bag2, j1, by simpa using j2⟩

/-! ### one iteration -/

/-- an integer overflow: a unary operator with a precondition that has been processed -/
def Overflow (K : Kind) (R : RTask) (S : Nat → Prop) (F : List Nat) : Prop :=
  ∃ D p rem d bag st i o c, XInv K R S R.ops.length F D p rem d bag st ∧ p ∈ D ∧ st.cost p = some c ∧ R.ops[i]? = some o ∧ i ∈ rem ∧ accum K o.base (st.opCost i) c = none

theorem relax_inv (hR : ROk K R) {S : Nat → Prop} {F D : List Nat} {p d : Nat} : ∀ (rem : List Nat) (bag : List (Entry Nat)) (st : RSt), rem.Nodup →
    (∀ i ∈ rem, ∃ o, R.ops[i]? = some o ∧ p ∈ o.pre) → p ∈ D → st.cost p = some d → XInv K R S R.ops.length F D p rem d bag st →
    (∃ st' bag', relax H K R d rem st = some st' ∧ XInv K R S R.ops.length F D p [] d bag' st') ∨ (relax H K R d rem st = none ∧ Overflow K R S F)
  | [], bag, st, _, _, _, _, h => Or.inl ⟨st, bag, rfl, h⟩
  | i :: rem, bag, st, hnd, hrem, hpD, hcp, h => by
    obtain ⟨o, ho, hpo⟩ := hrem i (by simp)
    have hom := List.mem_of_getElem? ho
    have hil : i < R.ops.length := (List.getElem?_eq_some_iff.mp ho).1
    have hni : i ∉ rem := (List.nodup_cons.mp hnd).1
    unfold relax
    rw [ho]
    simp only
    cases hacc : accum K o.base (st.opCost i) d with
    | none => exact Or.inr ⟨rfl, D, p, i :: rem, d, bag, st, i, o, d, h, hpD, hcp, ho, by simp, hacc⟩
    | some oc =>
      simp only
      -- the preconditions accounted for, before and after
      have hfin : ∀ j q, Fin D p rem j q ↔ Fin D p (i :: rem) j q ∨ (q = p ∧ j = i) := by
        intro j q
        unfold Fin
        constructor
        · rintro ⟨h1, h2⟩
          by_cases e : q = p ∧ j = i
          · exact Or.inr e
          · refine Or.inl ⟨h1, ?_⟩
            rintro ⟨e1, e2⟩
            rcases List.mem_cons.mp e2 with e2 | e2
            · exact e ⟨e1, e2⟩
            · exact h2 ⟨e1, e2⟩
        · rintro (⟨h1, h2⟩ | ⟨rfl, rfl⟩)
          · exact ⟨h1, fun e => h2 ⟨e.1, List.mem_cons_of_mem _ e.2⟩⟩
          · exact ⟨hpD, fun e => hni e.2⟩
      have hnf : ¬Fin D p (i :: rem) i p := fun hf => hf.2 ⟨rfl, by simp⟩
      have hval : st.val p = d := by simp [RSt.val, hcp]
      -- the filters
      have hperm : (o.pre.filter (fun q => decide (Fin D p rem i q))).Perm (o.pre.filter (fun q => decide (Fin D p (i :: rem) i q)) ++ [p]) := by
        rw [List.perm_ext_iff_of_nodup ((hR.nodup o hom).filter _)]
        · intro q
          simp only [List.mem_filter, decide_eq_true_eq, List.mem_append, List.mem_singleton]
          rw [hfin]
          constructor
          · rintro ⟨a, b | b⟩
            · exact Or.inl ⟨a, b⟩
            · exact Or.inr b.1
          · rintro (⟨a, b⟩ | rfl)
            · exact ⟨a, Or.inl b⟩
            · exact ⟨hpo, Or.inr ⟨rfl, rfl⟩⟩
        · rw [List.nodup_append]
          refine ⟨(hR.nodup o hom).filter _, by simp, ?_⟩
          intro a ha b hb
          simp only [List.mem_filter, decide_eq_true_eq, List.mem_singleton] at ha hb
          subst hb
          rintro rfl
          exact hnf ha.2
      have hlen : (o.pre.filter (fun q => decide (¬Fin D p (i :: rem) i q))).length = (o.pre.filter (fun q => decide (¬Fin D p rem i q))).length + 1 := by
        have e1 := List.length_eq_length_filter_add (l := o.pre) (fun q => decide (Fin D p (i :: rem) i q))
        have e2 := List.length_eq_length_filter_add (l := o.pre) (fun q => decide (Fin D p rem i q))
        have e3 := hperm.length_eq
        simp only [List.length_append, List.length_singleton] at e3
        simp only [decide_not]
        omega
      have hoc : oc = comb K o.base ((o.pre.filter (fun q => decide (Fin D p rem i q))).map st.val) := by
        rw [h.opCost i o hil ho] at hacc
        rw [accum_comb hacc, comb_perm ((hperm.map st.val))]
        simp [hval]
      -- the state after updating the operator
      have hunsat : ∀ j o', j < R.ops.length → R.ops[j]? = some o' → upd st.unsat i (st.unsat i - 1) j = ((o'.pre.filter (fun q => decide (¬Fin D p rem j q))).length : Int) := by
        intro j o' hj ho'
        simp only [upd]
        split
        · rename_i e
          subst e
          rw [ho] at ho'
          simp only [Option.some.injEq] at ho'
          subst ho'
          rw [h.unsat j o hil ho, hlen]
          push_cast; omega
        · rename_i e
          rw [h.unsat j o' hj ho']
          congr 2
          apply List.filter_congr
          intro q _
          congr 1
          rw [hfin]
          simp [e]
      have hopc : ∀ j o', j < R.ops.length → R.ops[j]? = some o' → upd st.opCost i oc j = comb K o'.base ((o'.pre.filter (fun q => decide (Fin D p rem j q))).map st.val) := by
        intro j o' hj ho'
        simp only [upd]
        split
        · rename_i e
          subst e
          rw [ho] at ho'
          simp only [Option.some.injEq] at ho'
          subst ho'
          exact hoc
        · rename_i e
          rw [h.opCost j o' hj ho']
          congr 2
          apply List.filter_congr
          intro q _
          congr 1
          rw [hfin]
          simp [e]
      -- the invariant except for `ready i`
      have hready : ∀ j o', j ≠ i → j < R.ops.length → R.ops[j]? = some o' → (∀ q ∈ o'.pre, Fin D p rem j q) → ∃ c, st.cost o'.eff = some c ∧ c ≤ comb K o'.base (o'.pre.map st.val) := by
        intro j o' hj hjl ho' hall
        refine h.ready j o' hjl ho' (fun q hq => ?_)
        have := (hfin j q).mp (hall q hq)
        simpa [hj] using this
      have hupdi : upd st.unsat i (st.unsat i - 1) i = st.unsat i - 1 := by simp [upd]
      by_cases hu : upd st.unsat i (st.unsat i - 1) i = 0
      · rw [if_pos hu]
        have hall : ∀ q ∈ o.pre, Fin D p rem i q := by
          have hz := hunsat i o hil ho
          rw [hu] at hz
          have hz' : (o.pre.filter (fun q => decide (¬Fin D p rem i q))) = [] := List.length_eq_zero_iff.mp (by exact_mod_cast hz.symm)
          intro q hq
          by_contra hf
          have : q ∈ o.pre.filter (fun q => decide (¬Fin D p rem i q)) := List.mem_filter.mpr ⟨hq, by simp [hf]⟩
          rw [hz'] at this; simp at this
        have hfe : o.pre.filter (fun q => decide (Fin D p rem i q)) = o.pre := List.filter_eq_self.mpr (fun q hq => by simp [hall q hq])
        rw [hfe] at hoc
        -- enqueue with the invariant restricted to the operators other than `i`: use the invariant before
        have hd : d ≤ oc := by
          rw [hoc]
          refine comb_ge (List.mem_map.mpr ⟨p, hpo, hval⟩) (h.ok p d hcp)
        obtain ⟨st', bag', k1, k2, k3, k4, k5, k6⟩ := enqueue_inv H h (hR.eff o hom) hd (by rw [hoc]; exact comb_ok _ _ _) (some i)
          (Or.inr ⟨i, o, rfl, ho, rfl, fun r hr => (hall r hr).1, hoc⟩)
        -- enqueue does not depend on the operators
        have henq : RSt.enqueue H R { st with opCost := upd st.opCost i oc, unsat := upd st.unsat i (st.unsat i - 1) } o.eff oc (some i) =
            some { st' with opCost := upd st.opCost i oc, unsat := upd st.unsat i (st.unsat i - 1) } := by
          unfold RSt.enqueue at k1 ⊢
          rw [if_pos (hR.eff o hom)] at k1 ⊢
          simp only at k1 ⊢
          cases hc : st.cost o.eff with
          | none =>
            rw [hc] at k1
            simp only [RSt.update] at k1 ⊢
            cases hq : st.queue.push H oc o.eff with
            | none => rw [hq] at k1; simp at k1
            | some q => rw [hq] at k1; simp only [Option.map_some, Option.some.injEq] at k1 ⊢; rw [← k1]
          | some old =>
            rw [hc] at k1
            simp only at k1 ⊢
            split at k1
            · rename_i hgt
              rw [if_pos hgt]
              simp only [RSt.update] at k1 ⊢
              cases hq : st.queue.push H oc o.eff with
              | none => rw [hq] at k1; simp at k1
              | some q => rw [hq] at k1; simp only [Option.map_some, Option.some.injEq] at k1 ⊢; rw [← k1]
            · rename_i hgt
              rw [if_neg hgt]
              simp only [Option.some.injEq] at k1 ⊢
              rw [← k1]
        rw [henq]
        simp only
        have hcp' : st'.cost p = some d := (k2.cur (by simp)).2
        refine relax_inv hR rem bag' _ (List.nodup_cons.mp hnd).2 (fun j hj => hrem j (by simp [hj])) hpD hcp' ?_
        refine ⟨⟨k2.core.nodupD, k2.core.nodup, k2.core.rep, k2.core.keys, k2.core.fresh, k2.core.entry, k2.core.done, k2.core.range⟩, k2.ok, hunsat, ?_, k2.state, ?_, k2.origin, fun _ => ⟨hpD, hcp'⟩⟩
        · intro j o' hj ho'
          show upd st.opCost i oc j = _
          rw [hopc j o' hj ho']
          congr 1
          symm
          refine map_val (fun q hq => ?_)
          simp only [List.mem_filter, decide_eq_true_eq] at hq
          exact k6 q hq.2.1
        · intro j o' hj ho' hall'
          by_cases e : j = i
          · subst e
            rw [ho] at ho'
            simp only [Option.some.injEq] at ho'
            subst ho'
            obtain ⟨c0, j1, j2⟩ := k5
            refine ⟨c0, j1, ?_⟩
            show c0 ≤ comb K o.base (o.pre.map st'.val)
            rw [map_val (fun q hq => k6 q (hall' q hq).1), ← hoc]
            exact j2
          · refine k2.ready j o' hj ho' (fun q hq => ?_)
            have := (hfin j q).mp (hall' q hq)
            simpa [e] using this
      · rw [if_neg hu]
        refine relax_inv hR rem bag _ (List.nodup_cons.mp hnd).2 (fun j hj => hrem j (by simp [hj])) hpD hcp ?_
        refine ⟨⟨h.core.nodupD, h.core.nodup, h.core.rep, h.core.keys, h.core.fresh, h.core.entry, h.core.done, h.core.range⟩, h.ok, hunsat, hopc, h.state, ?_, h.origin, fun _ => ⟨hpD, hcp⟩⟩
        intro j o' hj ho' hall'
        by_cases e : j = i
        · subst e
          rw [ho] at ho'
          simp only [Option.some.injEq] at ho'
          subst ho'
          exfalso
          apply hu
          rw [hunsat j o hil ho]
          have : o.pre.filter (fun q => decide (¬Fin D p rem j q)) = [] := by
            rw [List.filter_eq_nil_iff]
            intro q hq
            simp [hall' q hq]
          rw [this]; rfl
        · exact hready j o' e hj ho' hall'

end

end Verif.Relax
