import Verif.Lemmas.HmTuples
import Mathlib.Algebra.Order.BigOperators.Group.List
import Mathlib.Algebra.Order.Ring.Nat

/- The loops of h^m preserve invariants, and at the end no rule can improve an entry. -/
namespace Verif.Hm

/-- the table with a new value for one entry -/
def upd (val : Tuple → Nat) (T : Tuple) (v : Nat) : Tuple → Nat := fun u => if u = T then v else val u

section
variable (keys : List Tuple) (m : Nat)

/-- the updates for an operator: the entry `T` can be estimated by the facts `pre` -/
inductive Rule (o : Operator) : Tuple → Tuple → Prop where
  | eff (p) : p ∈ partials m (opEff o) → Rule o (opPre o) p
  | ext (p T) : p ∈ partials m (opEff o) → p.length < m → T ∈ keys → extends? o p T = true → ((extPre o p T).map (·.var)).Nodup → Rule o (extPre o p T) T

/-- an update does not improve the entry -/
def Sat (val : Tuple → Nat) (o : Operator) (pre T : Tuple) : Prop := ∀ c, eval keys m val pre = some c → c ≠ inf → val T ≤ c + o.cost

/-- `I` is an invariant of the table, and `K pre c val` holds for values `c` computed for `pre` -/
structure Invariant (ops : List Operator) (I : (Tuple → Nat) → Prop) (K : Tuple → Nat → (Tuple → Nat) → Prop) : Prop where
  start : ∀ val o pre c, I val → o ∈ ops → (pre = opPre o ∨ ∃ T, Rule keys m o pre T) → eval keys m val pre = some c → c ≠ inf → K pre c val
  step : ∀ val o pre T c, I val → o ∈ ops → Rule keys m o pre T → K pre c val → T ∈ keys → c + o.cost < val T → c + o.cost < 2 ^ 31 →
    I (upd val T (c + o.cost)) ∧ ∀ pre' c', K pre' c' val → K pre' c' (upd val T (c + o.cost))

structure Post (I : (Tuple → Nat) → Prop) (K : Tuple → Nat → (Tuple → Nat) → Prop) (st st' : St) : Prop where
  inv : I st'.val
  keep : ∀ pre c, K pre c st.val → K pre c st'.val
  same : st'.updated = false → st' = st
  le : ∀ T, st'.val T ≤ st.val T
  less : st.updated = false → st'.updated = true → ∃ T ∈ keys, st'.val T < st.val T

variable {keys m} {ops : List Operator} {I : (Tuple → Nat) → Prop} {K : Tuple → Nat → (Tuple → Nat) → Prop}

theorem Post.refl {st : St} (h : I st.val) : Post keys I K st st :=
  ⟨h, fun _ _ h => h, fun _ => rfl, fun _ => Nat.le_refl _, fun h1 h2 => by rw [h1] at h2; simp at h2⟩

theorem Post.trans {a b c : St} (h1 : Post keys I K a b) (h2 : Post keys I K b c) : Post keys I K a c := by
  refine ⟨h2.inv, fun p c h => h2.keep p c (h1.keep p c h), fun h => ?_, fun T => Nat.le_trans (h2.le T) (h1.le T), fun ha hc => ?_⟩
  · have e := h2.same h
    rw [e] at h
    rw [e, h1.same h]
  · cases hb : b.updated with
    | true =>
      obtain ⟨T, k1, k2⟩ := h1.less ha hb
      have := h2.le T
      exact ⟨T, k1, by omega⟩
    | false =>
      obtain ⟨T, k1, k2⟩ := h2.less hb hc
      have := h1.le T
      exact ⟨T, k1, by omega⟩

/-- if the result of the second step is unchanged, so is that of the first -/
theorem Post.same_left {a b c : St} (_h1 : Post keys I K a b) (h2 : Post keys I K b c) (h : c.updated = false) : b.updated = false := by
  rw [← h2.same h]; exact h

variable (hI : Invariant keys m ops I K)

include hI in
theorem updateIf_post {o : Operator} (ho : o ∈ ops) {pre T : Tuple} (hr : Rule keys m o pre T) {c : Nat} {st st' : St} (hi : I st.val) (hk : c ≠ inf → K pre c st.val) (h : updateIf keys o T c st = some st') :
    Post keys I K st st' ∧ (st'.updated = false → c ≠ inf → st.val T ≤ c + o.cost) := by
  unfold updateIf at h
  split at h
  · rename_i hc
    simp only [Option.some.injEq] at h
    subst h
    exact ⟨Post.refl hi, fun _ h => absurd hc h⟩
  · rename_i hc
    unfold addCost at h
    split at h
    · simp at h
    · rename_i v hv
      split at hv
      · rename_i hlt
        simp only [Option.some.injEq] at hv
        subst hv
        unfold updateEntry at h
        split at h
        · rename_i hT
          simp only [Option.some.injEq] at h
          split at h
          · rename_i hgt
            subst h
            obtain ⟨k1, k2⟩ := hI.step st.val o pre T c hi ho hr (hk hc) hT hgt hlt
            refine ⟨⟨k1, k2, by simp, fun U => ?_, fun _ _ => ⟨T, hT, by simpa using hgt⟩⟩, by simp⟩
            simp only
            split
            · rename_i e; subst e; omega
            · exact Nat.le_refl _
          · rename_i hle
            subst h
            exact ⟨Post.refl hi, fun _ _ => by omega⟩
        · simp at h
      · simp at hv

include hI in
theorem extendStep_post {o : Operator} (ho : o ∈ ops) {p T : Tuple} (hp : p ∈ partials m (opEff o)) (hlen : p.length < m) (hT : T ∈ keys) {st st' : St} (hi : I st.val) (h : extendStep keys m o p T st = some st') :
    Post keys I K st st' ∧ (st'.updated = false → extends? o p T = true → ((extPre o p T).map (·.var)).Nodup → Sat keys m st.val o (extPre o p T) T) := by
  unfold extendStep at h
  split at h
  · rename_i he
    split at h
    · rename_i hn
      have hr : Rule keys m o (extPre o p T) T := .ext p T hp hlen hT he hn
      split at h
      · simp at h
      · rename_i c hc
        obtain ⟨k1, k2⟩ := updateIf_post hI ho hr hi (fun hne => hI.start _ o _ c hi ho (Or.inr ⟨T, hr⟩) hc hne) h
        refine ⟨k1, fun hu _ _ c' hc' hne => ?_⟩
        rw [hc] at hc'
        simp only [Option.some.injEq] at hc'
        subst hc'
        exact k2 hu hne
    · rename_i hn
      simp only [Option.some.injEq] at h
      subst h
      exact ⟨Post.refl hi, fun _ _ h => absurd h hn⟩
  · rename_i he
    simp only [Option.some.injEq] at h
    subst h
    exact ⟨Post.refl hi, fun _ h => absurd h he⟩

include hI in
theorem extendLoop_post {o : Operator} (ho : o ∈ ops) {p : Tuple} (hp : p ∈ partials m (opEff o)) (hlen : p.length < m) : ∀ {ts : List Tuple} {st st' : St}, (∀ T ∈ ts, T ∈ keys) → I st.val → extendLoop keys m o p ts st = some st' →
    Post keys I K st st' ∧ (st'.updated = false → ∀ T ∈ ts, extends? o p T = true → ((extPre o p T).map (·.var)).Nodup → Sat keys m st.val o (extPre o p T) T)
  | [], st, st', _, hi, h => by
    simp only [extendLoop, Option.some.injEq] at h
    subst h
    exact ⟨Post.refl hi, by simp⟩
  | T :: ts, st, st', hts, hi, h => by
    simp only [extendLoop] at h
    split at h
    · simp at h
    · rename_i st1 h1
      obtain ⟨a1, a2⟩ := extendStep_post hI ho hp hlen (hts T (by simp)) hi h1
      obtain ⟨b1, b2⟩ := extendLoop_post ho hp hlen (fun U hU => hts U (by simp [hU])) a1.inv h
      refine ⟨a1.trans b1, fun hu U hU => ?_⟩
      have hu1 := a1.same_left b1 hu
      rcases List.mem_cons.mp hU with rfl | hU
      · exact a2 hu1
      · have := b2 hu U hU
        rwa [a1.same hu1] at this

include hI in
theorem effLoop_post {o : Operator} (ho : o ∈ ops) {c1 : Nat} : ∀ {ps : List Tuple} {st st' : St}, (∀ p ∈ ps, p ∈ partials m (opEff o)) → I st.val → (c1 ≠ inf → K (opPre o) c1 st.val) → effLoop keys m o c1 ps st = some st' →
    Post keys I K st st' ∧ (st'.updated = false → ∀ p ∈ ps, (c1 ≠ inf → st.val p ≤ c1 + o.cost) ∧ (p.length < m → ∀ T ∈ keys, extends? o p T = true → ((extPre o p T).map (·.var)).Nodup → Sat keys m st.val o (extPre o p T) T))
  | [], st, st', _, hi, _, h => by
    simp only [effLoop, Option.some.injEq] at h
    subst h
    exact ⟨Post.refl hi, by simp⟩
  | p :: ps, st, st', hps, hi, hk, h => by
    simp only [effLoop] at h
    split at h
    · simp at h
    · rename_i st1 h1
      obtain ⟨a1, a2⟩ := updateIf_post hI ho (.eff p (hps p (by simp))) hi hk h1
      split at h
      · rename_i hlen
        split at h
        · simp at h
        · rename_i st2 h2
          obtain ⟨b1, b2⟩ := extendLoop_post hI ho (hps p (by simp)) hlen (fun _ hT => hT) a1.inv h2
          obtain ⟨d1, d2⟩ := effLoop_post ho (fun q hq => hps q (by simp [hq])) b1.inv (fun hne => b1.keep _ _ (a1.keep _ _ (hk hne))) h
          refine ⟨(a1.trans b1).trans d1, fun hu q hq => ?_⟩
          have hu2 := b1.same_left d1 hu
          have hu1 := a1.same_left b1 hu2
          have e1 := a1.same hu1
          have e2 := b1.same hu2
          rcases List.mem_cons.mp hq with rfl | hq
          · refine ⟨a2 hu1, fun _ => ?_⟩
            have := b2 hu2
            rwa [e1] at this
          · have := d2 hu q hq
            rwa [e2, e1] at this
      · rename_i hlen
        obtain ⟨d1, d2⟩ := effLoop_post ho (fun q hq => hps q (by simp [hq])) a1.inv (fun hne => a1.keep _ _ (hk hne)) h
        refine ⟨a1.trans d1, fun hu q hq => ?_⟩
        have hu1 := a1.same_left d1 hu
        rcases List.mem_cons.mp hq with rfl | hq
        · exact ⟨a2 hu1, fun h => absurd h hlen⟩
        · have := d2 hu q hq
          rwa [a1.same hu1] at this

include hI in
theorem opStep_post {o : Operator} (ho : o ∈ ops) {st st' : St} (hi : I st.val) (h : opStep keys m o st = some st')
    (hmono : ∀ (val : Tuple → Nat) (p T : Tuple) (c1 c : Nat), ((extPre o p T).map (·.var)).Nodup → eval keys m val (opPre o) = some c1 → eval keys m val (extPre o p T) = some c → c1 ≤ c) (hinf : ∀ (val : Tuple → Nat) (pre : Tuple) (c : Nat), I val → eval keys m val pre = some c → c ≤ inf) :
    Post keys I K st st' ∧ (st'.updated = false → ∀ pre T, Rule keys m o pre T → Sat keys m st.val o pre T) := by
  unfold opStep at h
  split at h
  · simp at h
  · rename_i c1 hc1
    split at h
    · rename_i hne
      simp only [Option.some.injEq] at h
      subst h
      refine ⟨Post.refl hi, fun _ pre T hr => ?_⟩
      cases hr with
      | eff p hp =>
        intro c hc h'
        rw [hc1] at hc
        simp only [Option.some.injEq] at hc
        exact absurd (hc ▸ hne) h'
      | ext p T hp hl hT he hn =>
        intro c hc h'
        have h1 := hmono _ p T c1 c hn hc1 hc
        have h2 := hinf _ _ c hi hc
        omega
    · rename_i hne
      obtain ⟨a1, a2⟩ := effLoop_post hI ho (fun _ hp => hp) hi (fun hne => hI.start _ o _ c1 hi ho (Or.inl rfl) hc1 hne) h
      refine ⟨a1, fun hu pre T hr => ?_⟩
      cases hr with
      | eff p hp =>
        intro c hc h'
        rw [hc1] at hc
        simp only [Option.some.injEq] at hc
        subst hc
        exact (a2 hu _ hp).1 h'
      | ext p T hp hl hT he hn => exact (a2 hu p hp).2 hl T hT he hn

end

theorem evalLoop_spec {keys : List Tuple} {val : Tuple → Nat} : ∀ {ts : List Tuple} {mx c : Nat}, evalLoop keys val ts mx = some c → (∀ T ∈ ts, T ∈ keys) ∧ mx ≤ c ∧ (∀ T ∈ ts, val T ≤ c) ∧ (c = mx ∨ ∃ T ∈ ts, val T = c)
  | [], mx, c, h => by
    simp only [evalLoop, Option.some.injEq] at h
    simp [h]
  | T :: ts, mx, c, h => by
    simp only [evalLoop] at h
    split at h
    · rename_i hT
      obtain ⟨h1, h2, h3, h4⟩ := evalLoop_spec h
      refine ⟨fun U hU => ?_, ?_, fun U hU => ?_, ?_⟩
      · rcases List.mem_cons.mp hU with rfl | hU
        · exact hT
        · exact h1 U hU
      · split at h2 <;> omega
      · rcases List.mem_cons.mp hU with rfl | hU
        · split at h2 <;> omega
        · exact h3 U hU
      · rcases h4 with h4 | ⟨U, hU, h4⟩
        · split at h4
          · exact Or.inr ⟨T, by simp, h4.symm⟩
          · exact Or.inl h4
        · exact Or.inr ⟨U, by simp [hU], h4⟩
    · simp at h

theorem evalLoop_defined {keys : List Tuple} {val : Tuple → Nat} : ∀ {ts : List Tuple} {mx : Nat}, (∀ T ∈ ts, T ∈ keys) → ∃ c, evalLoop keys val ts mx = some c
  | [], mx, _ => ⟨mx, rfl⟩
  | T :: ts, mx, h => by
    simp only [evalLoop, if_pos (h T (by simp))]
    exact evalLoop_defined (fun U hU => h U (by simp [hU]))

theorem eval_spec {keys : List Tuple} {m : Nat} {val : Tuple → Nat} {t : Tuple} {c : Nat} (h : eval keys m val t = some c) :
    (∀ T ∈ partials m t, T ∈ keys ∧ val T ≤ c) ∧ (c = 0 ∨ ∃ T ∈ partials m t, val T = c) := by
  obtain ⟨h1, _, h3, h4⟩ := evalLoop_spec h
  exact ⟨fun T hT => ⟨h1 T hT, h3 T hT⟩, h4⟩

theorem eval_inf {keys : List Tuple} {m : Nat} {val : Tuple → Nat} (h : ∀ T ∈ keys, val T ≤ inf) {pre : Tuple} {c : Nat} (hc : eval keys m val pre = some c) : c ≤ inf := by
  obtain ⟨h1, h2⟩ := eval_spec hc
  rcases h2 with rfl | ⟨T, hT, rfl⟩
  · exact Nat.zero_le _
  · exact h T (h1 T hT).1

theorem eval_mono {keys : List Tuple} {m : Nat} {val : Tuple → Nat} {a b : Tuple} (hab : a.Sublist b) {c d : Nat} (hc : eval keys m val a = some c) (hd : eval keys m val b = some d) : c ≤ d := by
  obtain ⟨_, h2⟩ := eval_spec hc
  obtain ⟨h3, _⟩ := eval_spec hd
  rcases h2 with rfl | ⟨T, hT, rfl⟩
  · exact Nat.zero_le _
  · obtain ⟨k1, k2, k3⟩ := mem_partials.mp hT
    exact (h3 T (mem_partials.mpr ⟨k1.trans hab, k2, k3⟩)).2

theorem opPre_asc {o : Operator} (h : (o.pre.map (·.var)).Nodup) : Asc (opPre o) := sortFacts_asc h

theorem opPre_sublist {o : Operator} (h : (o.pre.map (·.var)).Nodup) {p T : Tuple} (hn : ((extPre o p T).map (·.var)).Nodup) : (opPre o).Sublist (extPre o p T) :=
  asc_sublist (opPre_asc h) (extPre_asc hn) fun _ hf => mem_extPre.mpr (Or.inl (mem_sortFacts.mp hf))

section
variable {keys : List Tuple} {m : Nat} {ops : List Operator} {I : (Tuple → Nat) → Prop} {K : Tuple → Nat → (Tuple → Nat) → Prop} (hI : Invariant keys m ops I K) (hle : ∀ val, I val → ∀ T ∈ keys, val T ≤ inf)
  (hpre : ∀ o ∈ ops, (o.pre.map (·.var)).Nodup)

include hI hle hpre in
theorem round_post : ∀ {os : List Operator} {st st' : St}, (∀ o ∈ os, o ∈ ops) → I st.val → round keys m os st = some st' →
    Post keys I K st st' ∧ (st'.updated = false → ∀ o ∈ os, ∀ pre T, Rule keys m o pre T → Sat keys m st.val o pre T)
  | [], st, st', _, hi, h => by
    simp only [round, Option.some.injEq] at h
    subst h
    exact ⟨Post.refl hi, by simp⟩
  | o :: os, st, st', hos, hi, h => by
    simp only [round] at h
    split at h
    · simp at h
    · rename_i st1 h1
      have ho := hos o (by simp)
      obtain ⟨a1, a2⟩ := opStep_post hI ho hi h1 (fun val p T c1 c hn e1 e2 => eval_mono (opPre_sublist (hpre o ho) hn) e1 e2) (fun val pre c hv hc => eval_inf (hle val hv) hc)
      obtain ⟨b1, b2⟩ := round_post (fun o' ho' => hos o' (by simp [ho'])) a1.inv h
      refine ⟨a1.trans b1, fun hu o' ho' => ?_⟩
      have hu1 := a1.same_left b1 hu
      rcases List.mem_cons.mp ho' with rfl | ho'
      · exact a2 hu1
      · have := b2 hu o' ho'
        rwa [a1.same hu1] at this

include hI hle hpre in
/-- at the end the invariant holds, and no update improves an entry -/
theorem update_post {val val' : Tuple → Nat} (hi : I val) (h : update keys m ops val = some val') :
    I val' ∧ ∀ o ∈ ops, ∀ pre T, Rule keys m o pre T → Sat keys m val' o pre T := by
  revert hi
  refine update.partial_correctness keys m ops (fun val val' => I val → I val' ∧ ∀ o ∈ ops, ∀ pre T, Rule keys m o pre T → Sat keys m val' o pre T) ?_ val val' h
  intro upd' ih v v' hv hi
  split at hv
  · simp at hv
  · rename_i st hst
    obtain ⟨a1, a2⟩ := round_post hI hle hpre (fun _ h => h) hi hst
    split at hv
    · exact ih _ _ hv a1.inv
    · rename_i hu
      simp only [Bool.not_eq_true] at hu
      simp only [Option.some.injEq] at hv
      subst hv
      have e := a1.same hu
      refine ⟨a1.inv, ?_⟩
      have := a2 hu
      rw [e]
      exact this

/-! Definedness -/

variable (hdef : ∀ o ∈ ops, ∀ pre, (pre = opPre o ∨ ∃ T, Rule keys m o pre T) → ∀ T ∈ partials m pre, T ∈ keys) (htgt : ∀ o ∈ ops, ∀ pre T, Rule keys m o pre T → T ∈ keys)
  (hfit : ∀ val o pre c, I val → o ∈ ops → (pre = opPre o ∨ ∃ T, Rule keys m o pre T) → K pre c val → c + o.cost < 2 ^ 31)

include hfit htgt in
theorem updateIf_defined {o : Operator} (ho : o ∈ ops) {pre T : Tuple} (hr : Rule keys m o pre T) {c : Nat} {st : St} (hi : I st.val) (hk : c ≠ inf → K pre c st.val) : ∃ st', updateIf keys o T c st = some st' := by
  unfold updateIf
  split
  · exact ⟨_, rfl⟩
  · rename_i hc
    have := hfit st.val o pre c hi ho (Or.inr ⟨T, hr⟩) (hk hc)
    simp only [addCost, if_pos this, updateEntry, if_pos (htgt o ho pre T hr)]
    exact ⟨_, rfl⟩

include hI hdef htgt hfit in
theorem extendStep_defined {o : Operator} (ho : o ∈ ops) {p T : Tuple} (hp : p ∈ partials m (opEff o)) (hlen : p.length < m) (hT : T ∈ keys) {st : St} (hi : I st.val) : ∃ st', extendStep keys m o p T st = some st' := by
  unfold extendStep
  split
  · rename_i he
    split
    · rename_i hn
      have hr : Rule keys m o (extPre o p T) T := .ext p T hp hlen hT he hn
      obtain ⟨c, hc⟩ : ∃ c, eval keys m st.val (extPre o p T) = some c := evalLoop_defined (hdef o ho _ (Or.inr ⟨T, hr⟩))
      rw [hc]
      exact updateIf_defined htgt hfit ho hr hi (fun hne => hI.start _ o _ c hi ho (Or.inr ⟨T, hr⟩) hc hne)
    · exact ⟨_, rfl⟩
  · exact ⟨_, rfl⟩

include hI hdef htgt hfit in
theorem extendLoop_defined {o : Operator} (ho : o ∈ ops) {p : Tuple} (hp : p ∈ partials m (opEff o)) (hlen : p.length < m) : ∀ {ts : List Tuple} {st : St}, (∀ T ∈ ts, T ∈ keys) → I st.val → ∃ st', extendLoop keys m o p ts st = some st'
  | [], st, _, _ => ⟨st, rfl⟩
  | T :: ts, st, hts, hi => by
    obtain ⟨st1, h1⟩ := extendStep_defined hI hdef htgt hfit ho hp hlen (hts T (by simp)) hi
    simp only [extendLoop, h1]
    exact extendLoop_defined ho hp hlen (fun U hU => hts U (by simp [hU])) (extendStep_post hI ho hp hlen (hts T (by simp)) hi h1).1.inv

include hI hdef htgt hfit in
theorem effLoop_defined {o : Operator} (ho : o ∈ ops) {c1 : Nat} : ∀ {ps : List Tuple} {st : St}, (∀ p ∈ ps, p ∈ partials m (opEff o)) → I st.val → (c1 ≠ inf → K (opPre o) c1 st.val) → ∃ st', effLoop keys m o c1 ps st = some st'
  | [], st, _, _, _ => ⟨st, rfl⟩
  | p :: ps, st, hps, hi, hk => by
    have hr : Rule keys m o (opPre o) p := .eff p (hps p (by simp))
    obtain ⟨st1, h1⟩ := updateIf_defined htgt hfit ho hr hi hk
    have a1 := (updateIf_post hI ho hr hi hk h1).1
    simp only [effLoop, h1]
    split
    · rename_i hlen
      obtain ⟨st2, h2⟩ := extendLoop_defined hI hdef htgt hfit ho (hps p (by simp)) hlen (fun _ hT => hT) a1.inv
      have b1 := (extendLoop_post hI ho (hps p (by simp)) hlen (fun _ hT => hT) a1.inv h2).1
      rw [h2]
      exact effLoop_defined ho (fun q hq => hps q (by simp [hq])) b1.inv (fun hne => b1.keep _ _ (a1.keep _ _ (hk hne)))
    · exact effLoop_defined ho (fun q hq => hps q (by simp [hq])) a1.inv (fun hne => a1.keep _ _ (hk hne))

include hI hdef htgt hfit in
theorem opStep_defined {o : Operator} (ho : o ∈ ops) {st : St} (hi : I st.val) : ∃ st', opStep keys m o st = some st' := by
  obtain ⟨c, hc⟩ : ∃ c, eval keys m st.val (opPre o) = some c := evalLoop_defined (hdef o ho _ (Or.inl rfl))
  simp only [opStep, hc]
  split
  · exact ⟨_, rfl⟩
  · exact effLoop_defined hI hdef htgt hfit ho (fun _ h => h) hi (fun hne => hI.start _ o _ c hi ho (Or.inl rfl) hc hne)

include hI hle hpre hdef htgt hfit in
theorem round_defined : ∀ {os : List Operator} {st : St}, (∀ o ∈ os, o ∈ ops) → I st.val → ∃ st', round keys m os st = some st'
  | [], st, _, _ => ⟨st, rfl⟩
  | o :: os, st, hos, hi => by
    have ho := hos o (by simp)
    obtain ⟨st1, h1⟩ := opStep_defined hI hdef htgt hfit ho hi
    simp only [round, h1]
    exact round_defined (fun o' ho' => hos o' (by simp [ho']))
      (opStep_post hI ho hi h1 (fun val p T c1 c hn e1 e2 => eval_mono (opPre_sublist (hpre o ho) hn) e1 e2) (fun val pre c hv hc => eval_inf (hle val hv) hc)).1.inv

theorem sum_lt {l : List Tuple} {f g : Tuple → Nat} (hle : ∀ T ∈ l, f T ≤ g T) (hlt : ∃ T ∈ l, f T < g T) : (l.map f).sum < (l.map g).sum := by
  induction l with
  | nil => obtain ⟨T, h, _⟩ := hlt; simp at h
  | cons a l ih =>
    simp only [List.map_cons, List.sum_cons]
    have h1 := hle a (by simp)
    have h2 : (l.map f).sum ≤ (l.map g).sum := List.sum_le_sum (fun T hT => hle T (by simp [hT]))
    obtain ⟨T, hT, h3⟩ := hlt
    rcases List.mem_cons.mp hT with rfl | hT
    · omega
    · have := ih (fun T hT => hle T (by simp [hT])) ⟨T, hT, h3⟩
      omega

include hI hle hpre hdef htgt hfit in
/-- the fixpoint is reached -/
theorem update_defined {val : Tuple → Nat} (hi : I val) : ∃ val', update keys m ops val = some val' := by
  generalize hn : (keys.map val).sum = n
  induction n using Nat.strongRecOn generalizing val with
  | ind n ih =>
    obtain ⟨st, hst⟩ := round_defined hI hle hpre hdef htgt hfit (os := ops) (st := ⟨val, false⟩) (fun _ h => h) hi
    obtain ⟨a1, _⟩ := round_post hI hle hpre (fun _ h => h) hi hst
    rw [update, hst]
    simp only
    split
    · rename_i hu
      have := sum_lt (fun T _ => a1.le T) (a1.less rfl hu)
      exact ih _ (by rw [← hn]; exact this) a1.inv rfl
    · exact ⟨_, rfl⟩

end
end Verif.Hm
