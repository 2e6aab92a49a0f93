import Verif.Lemmas.IntHashSet

/-!
# C03: the integer hash set is a set
-/
namespace Verif.IntHashSet

/-! ### Specification: a set of keys up to an equivalence -/

/-- One insertion into an abstract set (list of representatives). -/
def specInsert (equal : Int → Int → Bool) (S : List Int) (key : Int) : List Int × (Int × Bool) :=
  match S.find? (fun k => equal k key) with
  | some k => (S, (k, false))
  | none => (key :: S, (key, true))

/-- The abstract set after a sequence of insertions, and the answers given. -/
def specRun (equal : Int → Int → Bool) (S : List Int) : List Int → List Int × List (Int × Bool)
  | [] => (S, [])
  | k :: ks =>
    let (S', r) := specInsert equal S k
    let (S'', rs) := specRun equal S' ks
    (S'', r :: rs)

/-- The code: a sequence of public `insert` calls. -/
def run (hasher : Int → Nat) (equal : Int → Int → Bool) (t : Table) :
    List Int → Outcome (Table × List (Int × Bool))
  | [] => .ok (t, [])
  | k :: ks => do
    let (t', r) ← t.insert hasher equal k
    let (t'', rs) ← run hasher equal t' ks
    .ok (t'', r :: rs)

theorem pairwise_ne {equal : Int → Int → Bool} (hs : ∀ a b, equal a b = true → equal b a = true) {l : List Int}
    (hp : l.Pairwise (fun a b => equal a b = false)) {a b : Int} (ha : a ∈ l) (hb : b ∈ l) (hne : a ≠ b) :
    equal a b = false := by
  induction hp with
  | nil => simp at ha
  | cons h _ ih =>
    rcases List.mem_cons.mp ha with rfl | ha' <;> rcases List.mem_cons.mp hb with rfl | hb'
    · exact absurd rfl hne
    · exact h _ hb'
    · have := h _ ha'
      cases hab : equal a b with
      | false => rfl
      | true => rw [hs _ _ hab] at this; exact this
    · exact ih ha' hb'

theorem specIns_eq {hasher equal} (hc : Compat hasher equal) {t : Table} {S : List Int} {key : Int} {r S'}
    (hr : Rep hasher equal t S) (h : SpecIns equal S key r S') : specInsert equal S key = (S', r) := by
  unfold specInsert
  rcases h with ⟨h1, h2, h3, rfl⟩ | ⟨h1, h2, h3, rfl⟩
  · cases hf : S'.find? (fun k => equal k key) with
    | none =>
      have := List.find?_eq_none.mp hf r.1 h2
      simp [h3] at this
    | some k =>
      have hk : k ∈ S' := List.mem_of_find?_eq_some hf
      have hk2 : equal k key = true := by simpa using List.find?_some hf
      have hkr : k = r.1 := by
        have hsep : S'.Pairwise (fun a b => equal a b = false) := pairwise_perm hc.symm hr.perm hr.inv.sep
        have heq : equal k r.1 = true := hc.trans _ _ _ hk2 (hc.symm _ _ h3)
        apply Classical.byContradiction
        intro hne
        have hpw := pairwise_ne hc.symm hsep hk h2 hne
        rw [hpw] at heq; simp at heq
      obtain ⟨a, b⟩ := r
      simp only at h1 hkr
      simp [h1, hkr]
  · have : S.find? (fun k => equal k key) = none := by
      rw [List.find?_eq_none]
      intro k hk; simp [h3 k hk]
    rw [this]
    obtain ⟨a, b⟩ := r
    simp only at h1 h2
    simp [h1, h2]

theorem run_good {hasher equal} (hc : Compat hasher equal) :
    ∀ (keys : List Int) (t : Table) (S : List Int), Rep hasher equal t S → (∀ k ∈ keys, 0 ≤ k) →
      (run hasher equal t keys).Good (fun r => r.2 = (specRun equal S keys).2 ∧
        Rep hasher equal r.1 (specRun equal S keys).1) := by
  intro keys
  induction keys with
  | nil => intro t S hr _; exact ⟨rfl, hr⟩
  | cons k ks ih =>
    intro t S hr hk
    have hfuel : 2 ^ 31 ≤ t.capacity * 2 ^ FUEL := by
      have := pow_pos' hr.inv.pow
      unfold Table.capacity FUEL; omega
    refine Outcome.Good.bind (insertF_good hc FUEL t S k hr hfuel (hk k (by simp))) ?_
    rintro ⟨t', r⟩ ⟨S', h1, h2, _⟩
    simp only at h1 h2 ⊢
    refine Outcome.Good.bind (ih t' S' h2 (fun k' h' => hk k' (by simp [h']))) ?_
    rintro ⟨t'', rs⟩ ⟨g1, g2⟩
    simp only at g1 g2 ⊢
    have hsp := specIns_eq hc hr h1
    show _ ∧ _
    simp only [specRun, hsp]
    exact ⟨by rw [g1], g2⟩

/-- C03.  For every equivalence on keys compatible with the hash functor and every
sequence of non-negative keys inserted into a fresh set: no out-of-bounds access and no
endless loop happens, and either the capacity limit is exceeded or all answers and the
reported size are those of the abstract set. -/
theorem C03_hash_set (hasher : Int → Nat) (equal : Int → Int → Bool)
    (refl : ∀ a, equal a a = true)
    (symm : ∀ a b, equal a b = true → equal b a = true)
    (trans : ∀ a b c, equal a b = true → equal b c = true → equal a c = true)
    (compat : ∀ a b, equal a b = true → hasher a = hasher b)
    (keys : List Int) (hk : ∀ k ∈ keys, 0 ≤ k) :
    run hasher equal Table.empty keys = .overflow ∨
    ∃ t, run hasher equal Table.empty keys = .ok (t, (specRun equal [] keys).2) ∧
      t.size = (specRun equal [] keys).1.length := by
  have h := run_good ⟨refl, symm, trans, compat⟩ keys Table.empty [] (Rep.empty hasher equal) hk
  cases hrun : run hasher equal Table.empty keys with
  | ok r =>
    rw [hrun] at h
    obtain ⟨t, rs⟩ := r
    right
    exact ⟨t, by rw [← h.1], h.2.num⟩
  | abort => rw [hrun] at h; exact h.elim
  | overflow => left; rfl
  | ub => rw [hrun] at h; exact h.elim
  | diverge => rw [hrun] at h; exact h.elim

theorem run_small {hasher equal} (hc : Compat hasher equal) :
    ∀ (keys : List Int) (t : Table) (S : List Int), Rep hasher equal t S → (∀ k ∈ keys, 0 ≤ k) →
      t.capacity ≤ MAX_DISTANCE → (specRun equal S keys).1.length ≤ MAX_DISTANCE →
      ∃ r, run hasher equal t keys = .ok r := by
  intro keys
  induction keys with
  | nil => intro t S _ _ _ _; exact ⟨_, rfl⟩
  | cons k ks ih =>
    intro t S hr hk hcap hlen
    have mono : ∀ (ks : List Int) (S : List Int), S.length ≤ (specRun equal S ks).1.length := by
      intro ks
      induction ks with
      | nil => intro S; exact Nat.le_refl _
      | cons k ks ih =>
        intro S
        simp only [specRun]
        refine Nat.le_trans ?_ (ih _)
        unfold specInsert
        split <;> simp
    have hroom : (∃ k' ∈ S, equal k' k = true) ∨ S.length < MAX_DISTANCE := by
      cases hf : S.find? (fun k' => equal k' k) with
      | some k' => left; exact ⟨k', List.mem_of_find?_eq_some hf, by simpa using List.find?_some hf⟩
      | none =>
        right
        simp only [specRun] at hlen
        have := mono ks (specInsert equal S k).1
        have h2 : (specInsert equal S k).1 = k :: S := by simp [specInsert, hf]
        rw [h2] at this hlen
        simp at this
        omega
    obtain ⟨t', r, S', e, h1, h2, h3⟩ := insert_small hc hr hcap (hk k (by simp)) hroom 31
    have hsp := specIns_eq hc hr h1
    simp only [specRun, hsp] at hlen
    obtain ⟨r', e'⟩ := ih t' S' h2 (fun k' h' => hk k' (by simp [h'])) h3 hlen
    have e0 : t.insert hasher equal k = .ok (t', r) := e
    unfold run
    rw [e0, ok_bind]
    simp only
    rw [e', ok_bind]
    exact ⟨_, rfl⟩

/-- C03, progress: as long as at most 32 different keys are inserted, the set never gives
up, whatever the hash functor (even a constant one). -/
theorem C03_hash_set_progress (hasher : Int → Nat) (equal : Int → Int → Bool)
    (refl : ∀ a, equal a a = true)
    (symm : ∀ a b, equal a b = true → equal b a = true)
    (trans : ∀ a b c, equal a b = true → equal b c = true → equal a c = true)
    (compat : ∀ a b, equal a b = true → hasher a = hasher b)
    (keys : List Int) (hk : ∀ k ∈ keys, 0 ≤ k) (hfew : (specRun equal [] keys).1.length ≤ 32) :
    ∃ t, run hasher equal Table.empty keys = .ok (t, (specRun equal [] keys).2) := by
  obtain ⟨r, e⟩ := run_small ⟨refl, symm, trans, compat⟩ keys Table.empty [] (Rep.empty hasher equal) hk
    (by decide) hfew
  rcases C03_hash_set hasher equal refl symm trans compat keys hk with h | ⟨t, h, _⟩
  · rw [h] at e; simp at e
  · exact ⟨t, h⟩

theorem const_hash_overflow (ks : List Int) (hk : ∀ k ∈ ks, 0 ≤ k)
    (hlen : (specRun (fun a b => a == b) [] ks).1.length = 33) :
    run (fun _ => 0) (fun a b => a == b) Table.empty ks = .overflow := by
  have hc : Compat (fun _ : Int => 0) (fun a b => a == b) :=
    ⟨by simp, by intro a b h; simp at h ⊢; exact h.symm, by intro a b c h1 h2; simp at *; rw [h1, h2], by simp⟩
  have hg := run_good hc ks Table.empty [] (Rep.empty _ _) hk
  generalize run (fun _ => 0) (fun a b => a == b) Table.empty ks = o at hg ⊢
  cases o with
  | overflow => rfl
  | abort => exact hg.elim
  | ub => exact hg.elim
  | diverge => exact hg.elim
  | ok r =>
    exfalso
    obtain ⟨_, hrep⟩ := hg
    have h33 : r.1.buckets.countP Bucket.full = 33 := by
      rw [← keysOf_length, hrep.perm.length_eq, hlen]
    have hz : (r.1.buckets.drop 32).countP Bucket.full = 0 := by
      rw [List.countP_eq_zero]
      intro b hb hf
      obtain ⟨i, hi⟩ := List.getElem?_of_mem hb
      rw [List.getElem?_drop] at hi
      have hlt := lt_of_getElem? hi
      have := hrep.inv.near _ b hi hf
      rw [hrep.inv.hashOk b (List.mem_of_getElem? hi) hf] at this
      unfold getDistance MAX_DISTANCE at this
      simp at this
      omega
    have hsplit := List.take_append_drop 32 r.1.buckets
    rw [← hsplit, List.countP_append, hz] at h33
    have : (r.1.buckets.take 32).countP Bucket.full ≤ 32 :=
      Nat.le_trans List.countP_le_length (by simp; omega)
    omega

/-- The documentation (int_hash_set.h:43-47) and the check in `enlarge` promise a
controlled exit at the maximal capacity 2^30.  This is false of the code: the exit is
never taken, and there are insertion sequences (33 different keys with one hash value)
that make the 32-bit signed capacity overflow instead. -/
theorem C03_documented_limit_fails :
    (∀ (hasher : Int → Nat) (equal : Int → Int → Bool), (∀ a, equal a a = true) →
      (∀ a b, equal a b = true → equal b a = true) →
      (∀ a b c, equal a b = true → equal b c = true → equal a c = true) →
      (∀ a b, equal a b = true → hasher a = hasher b) →
      ∀ keys : List Int, (∀ k ∈ keys, 0 ≤ k) → run hasher equal Table.empty keys ≠ .abort) ∧
    run (fun _ => 0) (fun a b => a == b) Table.empty ((List.range 33).map Int.ofNat) = .overflow := by
  constructor
  · intro hasher equal h1 h2 h3 h4 keys hk habs
    rcases C03_hash_set hasher equal h1 h2 h3 h4 keys hk with h | ⟨t, h, _⟩ <;> rw [h] at habs <;> simp at habs
  · exact const_hash_overflow _ (by intro k hk; simp at hk; obtain ⟨n, _, rfl⟩ := hk; omega) (by decide +kernel)

/-! ### Non-vacuity -/

/-- keys up to parity, hashed by parity -/
def exHash (a : Int) : Nat := (a % 2).toNat
def exEq (a b : Int) : Bool := a % 2 == b % 2

example : (∀ a, exEq a a = true) ∧ (∀ a b, exEq a b = true → exEq b a = true) ∧
    (∀ a b c, exEq a b = true → exEq b c = true → exEq a c = true) ∧
    (∀ a b, exEq a b = true → exHash a = exHash b) := by
  refine ⟨?_, ?_, ?_, ?_⟩ <;> simp [exEq, exHash] <;> omega

example : (specRun exEq [] [4, 7, 6, 9]).2 = [(4, true), (7, true), (4, false), (7, false)] := by decide

end Verif.IntHashSet
