import Verif.Spec.PriorityQueue
import Mathlib.Data.List.Basic
import Mathlib.Data.List.Perm.Basic
import Mathlib.Data.List.Sort

namespace Verif.AdaptiveQueue

variable {V : Type}

def entriesFrom : Nat → List (List V) → List (Entry V)
  | _, [] => []
  | k, b :: bs => b.map (fun v => (k, v)) ++ entriesFrom (k + 1) bs

theorem entriesFrom_append : ∀ (bs : List (List V)) (k : Nat) (cs : List (List V)), entriesFrom k (bs ++ cs) = entriesFrom k bs ++ entriesFrom (k + bs.length) cs
  | [], k, cs => by simp [entriesFrom]
  | b :: bs, k, cs => by
    rw [List.cons_append, entriesFrom, entriesFrom_append bs, entriesFrom]
    simp [Nat.add_assoc, Nat.add_comm 1]

theorem entriesFrom_replicate (k n : Nat) : entriesFrom k (List.replicate n ([] : List V)) = [] := by
  induction n generalizing k with
  | zero => rfl
  | succ n ih => simp [List.replicate_succ, entriesFrom, ih]

theorem entriesFrom_push : ∀ (bs : List (List V)) (k j : Nat) (h : j < bs.length) (v : V),
    (entriesFrom k (bs.set j (bs[j] ++ [v]))).Perm ((k + j, v) :: entriesFrom k bs)
  | b :: bs, k, 0, _, v => by
    simp only [List.set_cons_zero, List.getElem_cons_zero, entriesFrom, List.map_append, List.map_cons, List.map_nil, Nat.add_zero,
      List.append_assoc, List.singleton_append]
    exact List.perm_middle
  | b :: bs, k, j + 1, h, v => by
    simp only [List.set_cons_succ, List.getElem_cons_succ, entriesFrom]
    have := entriesFrom_push bs (k + 1) j (by simpa using h) v
    have e : k + 1 + j = k + (j + 1) := by omega
    rw [e] at this
    exact (this.append_left _).trans List.perm_middle

theorem entriesFrom_pop : ∀ (bs : List (List V)) (k j : Nat) (h : j < bs.length) (v : V), bs[j].getLast? = some v →
    (entriesFrom k bs).Perm ((k + j, v) :: entriesFrom k (bs.set j bs[j].dropLast))
  | b :: bs, k, 0, _, v, hl => by
    simp only [List.set_cons_zero, List.getElem_cons_zero, entriesFrom, Nat.add_zero] at hl ⊢
    have : b = b.dropLast ++ [v] := by
      obtain ⟨hne, e⟩ := List.getLast?_eq_some_iff.mp hl
      rw [e]; simp
    conv_lhs => rw [this]
    simp only [List.map_append, List.map_cons, List.map_nil, List.append_assoc, List.singleton_append]
    exact List.perm_middle
  | b :: bs, k, j + 1, h, v, hl => by
    simp only [List.set_cons_succ, List.getElem_cons_succ, entriesFrom] at hl ⊢
    have := entriesFrom_pop bs (k + 1) j (by simpa using h) v hl
    have e : k + 1 + j = k + (j + 1) := by omega
    rw [e] at this
    exact (this.append_left _).trans List.perm_middle

theorem entriesFrom_key : ∀ (bs : List (List V)) (k : Nat), ∀ e ∈ entriesFrom k bs, k ≤ e.1
  | [], _, e, h => by simp [entriesFrom] at h
  | b :: bs, k, e, h => by
    rw [entriesFrom, List.mem_append] at h
    rcases h with h | h
    · obtain ⟨v, _, rfl⟩ := List.mem_map.mp h; exact Nat.le_refl _
    · have := entriesFrom_key bs (k + 1) e h; omega

theorem entriesFrom_sorted : ∀ (bs : List (List V)) (k : Nat), (entriesFrom k bs).Pairwise (fun a b => a.1 ≤ b.1)
  | [], _ => by simp [entriesFrom]
  | b :: bs, k => by
    rw [entriesFrom, List.pairwise_append]
    refine ⟨?_, entriesFrom_sorted bs (k + 1), ?_⟩
    · rw [List.pairwise_map]
      exact List.pairwise_of_forall (fun _ _ => Nat.le_refl _)
    · intro a ha e he
      obtain ⟨v, _, rfl⟩ := List.mem_map.mp ha
      have := entriesFrom_key bs (k + 1) e he
      simp only; omega

/-- the first `n` buckets are empty -/
theorem entriesFrom_drop : ∀ (n : Nat) (bs : List (List V)) (k : Nat), (∀ b ∈ bs.take n, b = []) → entriesFrom k bs = entriesFrom (k + n) (bs.drop n)
  | 0, bs, k, _ => by simp
  | n + 1, [], k, _ => by simp [entriesFrom]
  | n + 1, b :: bs, k, h => by
    have hb : b = [] := h b (by simp)
    subst hb
    rw [entriesFrom, List.drop_succ_cons, entriesFrom_drop n bs (k + 1) (fun x hx => h x (by simp [hx]))]
    simp [Nat.add_assoc, Nat.add_comm 1]

theorem updateCur_spec (bs : List (List V)) (cur : Nat) (h : ∀ b ∈ bs.take cur, b = []) (hle : cur ≤ bs.length) :
    (∀ b ∈ bs.take (updateCur bs cur), b = []) ∧ updateCur bs cur ≤ bs.length ∧
    (∀ hc : updateCur bs cur < bs.length, bs[updateCur bs cur] ≠ []) := by
  induction hn : bs.length - cur generalizing cur with
  | zero =>
    have : ¬ cur < bs.length := by omega
    unfold updateCur
    simp only [this, dif_neg, not_false_eq_true]
    exact ⟨h, hle, fun hc => absurd hc id⟩
  | succ n ih =>
    have hlt : cur < bs.length := by omega
    unfold updateCur
    simp only [hlt, dif_pos]
    split
    · rename_i he
      refine ih (cur + 1) ?_ (by omega) (by omega)
      intro b hb
      rw [List.take_succ_eq_append_getElem hlt] at hb
      rcases List.mem_append.mp hb with hb | hb
      · exact h b hb
      · simp at hb; subst hb; simpa using he
    · rename_i he
      exact ⟨h, hle, fun _ => by simpa using he⟩

theorem extractLoop_spec (bs : List (List V)) (key : Nat) (n : Int) (acc : List (Entry V))
    (hn : n = (entriesFrom key (bs.drop key)).length) (hk : key ≤ bs.length) :
    extractLoop bs key n acc = some (acc ++ entriesFrom key (bs.drop key)) := by
  induction hm : bs.length - key generalizing key n acc with
  | zero =>
    have : bs.drop key = [] := List.drop_eq_nil_of_le (by omega)
    rw [this] at hn ⊢
    simp [entriesFrom] at hn
    subst hn
    unfold extractLoop
    simp [entriesFrom]
  | succ m ih =>
    have hlt : key < bs.length := by omega
    unfold extractLoop
    split
    · rename_i h0
      have : entriesFrom key (bs.drop key) = [] := by
        apply List.eq_nil_of_length_eq_zero
        omega
      rw [this]; simp
    · rw [List.drop_eq_getElem_cons hlt, entriesFrom] at hn ⊢
      rw [ih (key + 1) _ _ ?_ (by omega) (by omega), List.append_assoc]
      simp only [List.length_append, List.length_map] at hn
      omega

theorem clearLoop_spec (bs : List (List V)) (i : Nat) (n : Int)
    (hn : n = (entriesFrom i (bs.drop i)).length) (hk : i ≤ bs.length) (h : ∀ b ∈ bs.take i, b = []) :
    ∃ bs', clearLoop bs i n = some bs' ∧ entriesFrom 0 bs' = [] := by
  induction hm : bs.length - i generalizing i n bs with
  | zero =>
    have hd : bs.drop i = [] := List.drop_eq_nil_of_le (by omega)
    rw [hd] at hn
    simp [entriesFrom] at hn
    subst hn
    unfold clearLoop
    refine ⟨bs, by simp, ?_⟩
    rw [entriesFrom_drop i bs 0 h, hd]; rfl
  | succ m ih =>
    have hlt : i < bs.length := by omega
    unfold clearLoop
    split
    · rename_i h0
      refine ⟨bs, rfl, ?_⟩
      rw [entriesFrom_drop i bs 0 h, Nat.zero_add]
      apply List.eq_nil_of_length_eq_zero
      omega
    · apply ih
      · rw [List.drop_eq_getElem_cons hlt, entriesFrom] at hn
        rw [List.drop_set_of_lt (by omega)]
        simp only [List.length_append, List.length_map] at hn
        omega
      · simp; omega
      · intro b hb
        have hlt' : i < (bs.set i []).length := by simpa using hlt
        rw [List.take_succ_eq_append_getElem hlt'] at hb
        rcases List.mem_append.mp hb with hb | hb
        · rw [List.take_set_of_le (Nat.le_refl _)] at hb
          exact h b hb
        · simpa using hb
      · simp; omega

theorem isHeap_of_sorted {c : List (Entry V)} (h : c.Pairwise (fun a b => a.1 ≤ b.1)) : IsHeap c := by
  intro i p x hi hp hx
  obtain ⟨h1, rfl⟩ := List.getElem?_eq_some_iff.mp hp
  obtain ⟨h2, rfl⟩ := List.getElem?_eq_some_iff.mp hx
  exact List.pairwise_iff_getElem.mp h _ _ h1 h2 (by omega)

/-- the first element of a heap is minimal -/
theorem IsHeap.min {c : List (Entry V)} {x : Entry V} (h : IsHeap (x :: c)) : ∀ e ∈ x :: c, x.1 ≤ e.1 := by
  intro e he
  obtain ⟨i, hi⟩ := List.mem_iff_getElem?.mp he
  induction i using Nat.strongRecOn generalizing e with
  | ind i ih =>
    by_cases h0 : i = 0
    · subst h0; simp at hi; subst hi; exact Nat.le_refl _
    · have hlt := (List.getElem?_eq_some_iff.mp hi).1
      have hp : (i - 1) / 2 < (x :: c).length := by omega
      have h1 := ih ((i - 1) / 2) (by omega) _ (List.getElem_mem hp) (List.getElem?_eq_getElem hp)
      have h2 := h i _ e (by omega) (List.getElem?_eq_getElem hp) hi
      omega

/-- the queue represents the bag -/
def Rep (q : Queue V) (bag : List (Entry V)) : Prop :=
  match q with
  | .bucket b => bag.Perm (entriesFrom 0 b.buckets) ∧ b.numEntries = bag.length ∧ (∀ x ∈ b.buckets.take b.cur, x = []) ∧ b.cur ≤ b.buckets.length
  | .heap c => bag.Perm c ∧ IsHeap c

theorem bucket_push {b : BucketQ V} {bag : List (Entry V)} (h : Rep (.bucket b) bag) (k : Nat) (v : V) :
    ∃ b', b.push k v = some b' ∧ Rep (.bucket b') ((k, v) :: bag) := by
  obtain ⟨h1, h2, h3, h4⟩ := h
  unfold BucketQ.push
  by_cases hk : k ≥ b.buckets.length
  · simp only [hk, if_true]
    have hl : k < (b.buckets ++ List.replicate (k + 1 - b.buckets.length) []).length := by simp; omega
    simp only [hl, dif_pos]
    refine ⟨_, rfl, ?_, ?_, ?_, ?_⟩
    · have := entriesFrom_push (b.buckets ++ List.replicate (k + 1 - b.buckets.length) []) 0 k hl v
      rw [entriesFrom_append, entriesFrom_replicate, List.append_nil, Nat.zero_add] at this
      exact (h1.cons _).trans this.symm
    · simp [h2]
    · intro x hx
      simp only at hx
      rw [List.take_set_of_le (by omega), List.take_append_of_le_length h4] at hx
      exact h3 x hx
    · simp; omega
  · have hl : k < b.buckets.length := by omega
    simp only [hk, if_false, hl, dif_pos]
    refine ⟨_, rfl, ?_, ?_, ?_, ?_⟩
    · have := entriesFrom_push b.buckets 0 k hl v
      rw [Nat.zero_add] at this
      exact (h1.cons _).trans this.symm
    · simp [h2]
    · intro x hx
      simp only at hx
      split at hx
      · rw [List.take_set_of_le (Nat.le_refl _)] at hx
        apply h3 x
        exact (List.take_subset_take_left _ (by omega)) hx
      · rw [List.take_set_of_le (by omega)] at hx
        exact h3 x hx
    · simp only [List.length_set]; split <;> omega

theorem step_refines (H : StdHeap V) {q : Queue V} {bag : List (Entry V)} (h : Rep q bag) (op : Op V) (hpop : op = .pop → bag ≠ []) :
    ∃ q' o bag', step H q op = some (q', o) ∧ SpecStep bag op o bag' ∧ Rep q' bag' := by
  cases op with
  | push k v =>
    cases q with
    | bucket b =>
      simp only [step, Queue.push, Queue.convertIfNecessary]
      split
      · obtain ⟨h1, h2, h3, h4⟩ := h
        have hd := entriesFrom_drop b.cur b.buckets 0 h3
        rw [Nat.zero_add] at hd
        rw [extractLoop_spec b.buckets b.cur b.numEntries [] (by rw [← hd, h2, h1.length_eq]) h4]
        simp only [List.nil_append, Option.map_some, Option.bind_eq_bind, Option.bind_some]
        have hh := H.push_ok (entriesFrom b.cur (b.buckets.drop b.cur)) (k, v) (isHeap_of_sorted (entriesFrom_sorted _ _))
        refine ⟨_, _, _, rfl, SpecStep.push bag k v, ?_, hh.1⟩
        rw [← hd] at hh ⊢
        exact (h1.cons _).trans hh.2.symm
      · obtain ⟨b', e, h'⟩ := bucket_push h k v
        simp only [Option.bind_eq_bind, Option.bind_some, e, Option.map_some]
        exact ⟨_, _, _, rfl, SpecStep.push bag k v, h'⟩
    | heap c =>
      simp only [step, Queue.push, Queue.convertIfNecessary, Option.bind_eq_bind, Option.bind_some, Option.map_some]
      have hh := H.push_ok c (k, v) h.2
      exact ⟨_, _, _, rfl, SpecStep.push bag k v, (h.1.cons _).trans hh.2.symm, hh.1⟩
  | pop =>
    have hne := hpop rfl
    cases q with
    | bucket b =>
      obtain ⟨h1, h2, h3, h4⟩ := h
      obtain ⟨u1, u2, u3⟩ := updateCur_spec b.buckets b.cur h3 h4
      have hlt : updateCur b.buckets b.cur < b.buckets.length := by
        by_contra hge
        have hd := entriesFrom_drop _ b.buckets 0 u1
        rw [List.drop_eq_nil_of_le (by omega)] at hd
        rw [hd] at h1
        exact hne h1.eq_nil
      have hne' := u3 hlt
      obtain ⟨v, hv⟩ : ∃ v, b.buckets[updateCur b.buckets b.cur].getLast? = some v := by
        rw [List.getLast?_eq_some_getLast hne']; exact ⟨_, rfl⟩
      have hp := entriesFrom_pop b.buckets 0 _ hlt v hv
      rw [Nat.zero_add] at hp
      simp only [step, Queue.pop, BucketQ.pop, hlt, dif_pos, hv, Option.map_some]
      refine ⟨_, _, entriesFrom 0 (b.buckets.set (updateCur b.buckets b.cur) b.buckets[updateCur b.buckets b.cur].dropLast), rfl,
        SpecStep.pop bag _ _ v (h1.trans hp) ?_, List.Perm.refl _, ?_, ?_, ?_⟩
      · intro e he
        have := h1.subset he
        rw [entriesFrom_drop _ b.buckets 0 u1, Nat.zero_add] at this
        exact entriesFrom_key _ _ e this
      · have := (h1.trans hp).length_eq
        simp only [List.length_cons] at this
        simp only [h2]
        omega
      · intro x hx
        simp only at hx
        rw [List.take_set_of_le (Nat.le_refl _)] at hx
        exact u1 x hx
      · simp only [List.length_set]; omega
    | heap c =>
      cases c with
      | nil => exact absurd h.1.eq_nil hne
      | cons x c =>
        have hh := H.pop_ok x c h.2
        simp only [step, Queue.pop, Option.map_some]
        refine ⟨_, _, c, rfl, SpecStep.pop bag c x.1 x.2 h.1 ?_, hh.2.symm, hh.1⟩
        intro e he
        exact h.2.min e (h.1.subset he)
  | empty =>
    refine ⟨q, _, bag, rfl, SpecStep.empty bag _ ?_, h⟩
    cases q with
    | bucket b =>
      simp only [Queue.empty, beq_iff_eq, h.2.1]
      rw [← List.length_eq_zero_iff]; omega
    | heap c =>
      simp only [Queue.empty, List.isEmpty_iff]
      constructor
      · rintro rfl; exact h.1.eq_nil
      · rintro rfl; exact h.1.symm.eq_nil
  | clear =>
    cases q with
    | bucket b =>
      obtain ⟨h1, h2, h3, h4⟩ := h
      have hd := entriesFrom_drop b.cur b.buckets 0 h3
      rw [Nat.zero_add] at hd
      obtain ⟨bs, e, hb⟩ := clearLoop_spec b.buckets b.cur b.numEntries (by rw [← hd, h2, h1.length_eq]) h4 h3
      simp only [step, Queue.clear, BucketQ.clear, e, Option.bind_eq_bind, Option.bind_some, Option.map_some]
      exact ⟨_, _, _, rfl, SpecStep.clear bag, by simp [hb], by simp, by simp, by simp⟩
    | heap c =>
      refine ⟨.heap [], _, _, rfl, SpecStep.clear bag, List.Perm.refl _, ?_⟩
      intro i p x _ _ hx; simp at hx
  | addVirtualPushes n =>
    refine ⟨_, _, bag, rfl, SpecStep.virt bag n, ?_⟩
    cases q with
    | bucket b => exact h
    | heap c => exact h

end Verif.AdaptiveQueue
