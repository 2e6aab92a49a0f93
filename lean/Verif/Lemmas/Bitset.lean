import Verif.Model.Bitset
import Mathlib.Data.Finset.Card
import Mathlib.Order.Interval.Finset.Nat
import Mathlib.Data.Finset.Range
import Mathlib.Data.Finset.Insert

namespace Verif.Bitset

variable {B : Nat}

theorem numBlocks_lt (hB : 0 < B) {pos n : Nat} (h : pos < n) : pos / B < computeNumBlocks B n := by
  unfold computeNumBlocks
  have h1 := Nat.div_add_mod n B
  have h2 := Nat.mod_lt n hB
  have h3 := Nat.div_add_mod pos B
  have h4 := Nat.mod_lt pos hB
  rw [Nat.div_lt_iff_lt_mul hB]
  split
  · rename_i hn
    rw [Nat.add_mul, Nat.mul_comm (n / B)]
    omega
  · rename_i hn
    have : n % B = 0 := by simpa using hn
    rw [Nat.add_mul, Nat.mul_comm (n / B)]
    omega

theorem viewNumBlocks_eq (hB : 0 < B) (n : Nat) : viewNumBlocks B n = computeNumBlocks B n := by
  unfold viewNumBlocks computeNumBlocks
  have h1 := Nat.div_add_mod n B
  have h2 := Nat.mod_lt n hB
  have e : B * (n / B) = n / B * B := Nat.mul_comm _ _
  split
  · rename_i hn
    rw [Nat.div_eq_of_lt_le]
    · rw [Nat.add_mul]; omega
    · rw [Nat.add_mul, Nat.add_mul]; omega
  · rename_i hn
    have : n % B = 0 := by simpa using hn
    rw [Nat.div_eq_of_lt_le]
    · rw [Nat.add_mul]; omega
    · rw [Nat.add_mul, Nat.add_mul]; omega

theorem mask_bit (hB : 0 < B) (pos j : Nat) (hj : j < B) : (bitMask B pos).getLsbD j = decide (j = pos % B) := by
  unfold bitMask bitIndex
  have := Nat.mod_lt pos hB
  rw [BitVec.getLsbD_shiftLeft, BitVec.getLsbD_one]
  simp only [hj, decide_true, Bool.true_and, hB]
  by_cases h : j < pos % B
  · simp [h]; omega
  · simp only [h, decide_false, Bool.not_false, Bool.true_and]
    have : (j - pos % B = 0) ↔ j = pos % B := by omega
    simp [this]

theorem and_mask_ne_zero (hB : 0 < B) (x : BitVec B) (pos : Nat) :
    (x &&& bitMask B pos ≠ 0#B) ↔ x.getLsbD (pos % B) = true := by
  have hm := Nat.mod_lt pos hB
  constructor
  · intro h
    by_contra hx
    apply h
    apply BitVec.eq_of_getLsbD_eq
    intro j hj
    rw [BitVec.getLsbD_and, mask_bit hB pos j hj]
    by_cases e : j = pos % B
    · subst e; rw [Bool.not_eq_true] at hx; simp [hx]
    · simp [e]
  · intro h e
    have := congrArg (fun y => y.getLsbD (pos % B)) e
    simp only [BitVec.getLsbD_and, mask_bit hB pos _ hm, h] at this
    simp at this

theorem and_ne_zero (x y : BitVec B) :
    (x &&& y ≠ 0#B) ↔ ∃ j, j < B ∧ x.getLsbD j = true ∧ y.getLsbD j = true := by
  constructor
  · intro h
    by_contra hx
    apply h
    apply BitVec.eq_of_getLsbD_eq
    intro j hj
    rw [BitVec.getLsbD_and]
    by_contra hc
    apply hx
    refine ⟨j, hj, ?_⟩
    simpa using hc
  · rintro ⟨j, hj, h1, h2⟩ e
    have := congrArg (fun y => y.getLsbD j) e
    simp [BitVec.getLsbD_and, h1, h2] at this

/-- the bitset `b` with `n` bits represents the set `S` -/
structure Rep (n : Nat) (b : DB B) (S : Finset Nat) : Prop where
  num : b.numBits = n
  len : b.blocks.length = computeNumBlocks B n
  sub : ∀ p ∈ S, p < n
  bits : ∀ (i : Nat) (x : BitVec B), b.blocks[i]? = some x → ∀ j, j < B → (x.getLsbD j = true ↔ i * B + j ∈ S)

theorem split_eq (hB : 0 < B) {i j p : Nat} (hj : j < B) : i * B + j = p ↔ i = p / B ∧ j = p % B := by
  constructor
  · intro h; subst h
    rw [Nat.mul_comm, Nat.mul_add_div hB, Nat.div_eq_of_lt hj, Nat.mul_add_mod, Nat.mod_eq_of_lt hj]
    simp
  · rintro ⟨rfl, rfl⟩
    rw [Nat.mul_comm]; exact Nat.div_add_mod p B

theorem new_rep (n : Nat) : Rep n (DB.new B n) ∅ := by
  refine ⟨rfl, by simp [DB.new], by simp, ?_⟩
  intro i x hx j hj
  simp only [DB.new, List.getElem?_replicate] at hx
  split at hx
  · simp at hx; subst hx; simp
  · simp at hx

variable {n : Nat} {b c : DB B} {S T : Finset Nat}

theorem set_spec (hB : 0 < B) (h : Rep n b S) {p : Nat} (hp : p < n) :
    ∃ b', b.set p = some b' ∧ Rep n b' (insert p S) := by
  have hi : blockIndex B p < b.blocks.length := by rw [h.len]; exact numBlocks_lt hB hp
  refine ⟨{ b with blocks := b.blocks.set (blockIndex B p) (b.blocks[blockIndex B p] ||| bitMask B p) }, ?_, ?_⟩
  · unfold DB.set; rw [if_pos (by rw [h.num]; exact hp), List.getElem?_eq_getElem hi]; rfl
  · refine ⟨h.num, by simp [h.len], ?_, ?_⟩
    · intro q hq
      rcases Finset.mem_insert.mp hq with e | e
      · omega
      · exact h.sub q e
    · intro i x hx j hj
      by_cases hii : i = blockIndex B p
      · subst hii
        simp only at hx
        rw [List.getElem?_set_self hi] at hx
        simp only [Option.some.injEq] at hx
        subst hx
        rw [BitVec.getLsbD_or, Bool.or_eq_true, h.bits _ _ (List.getElem?_eq_getElem hi) j hj, mask_bit hB p j hj,
          Finset.mem_insert, split_eq hB hj]
        simp [blockIndex, or_comm]
      · simp only at hx
        rw [List.getElem?_set_ne (fun e => hii e.symm)] at hx
        rw [h.bits i x hx j hj, Finset.mem_insert, split_eq hB hj]
        simp [blockIndex] at hii
        simp [hii]

theorem reset_spec (hB : 0 < B) (h : Rep n b S) {p : Nat} (hp : p < n) :
    ∃ b', b.reset p = some b' ∧ Rep n b' (S.erase p) := by
  have hi : blockIndex B p < b.blocks.length := by rw [h.len]; exact numBlocks_lt hB hp
  refine ⟨{ b with blocks := b.blocks.set (blockIndex B p) (b.blocks[blockIndex B p] &&& ~~~bitMask B p) }, ?_, ?_⟩
  · unfold DB.reset; rw [if_pos (by rw [h.num]; exact hp), List.getElem?_eq_getElem hi]; rfl
  · refine ⟨h.num, by simp [h.len], ?_, ?_⟩
    · intro q hq; exact h.sub q (Finset.mem_of_mem_erase hq)
    · intro i x hx j hj
      by_cases hii : i = blockIndex B p
      · subst hii
        simp only at hx
        rw [List.getElem?_set_self hi] at hx
        simp only [Option.some.injEq] at hx
        subst hx
        rw [BitVec.getLsbD_and, Bool.and_eq_true, h.bits _ _ (List.getElem?_eq_getElem hi) j hj, BitVec.getLsbD_not,
          mask_bit hB p j hj, Finset.mem_erase, ne_eq, split_eq hB hj]
        simp [blockIndex, hj, and_comm]
      · simp only at hx
        rw [List.getElem?_set_ne (fun e => hii e.symm)] at hx
        rw [h.bits i x hx j hj, Finset.mem_erase, ne_eq, split_eq hB hj]
        simp [blockIndex] at hii
        simp [hii]

theorem resetAll_spec (h : Rep n b S) : Rep n b.resetAll ∅ := by
  refine ⟨h.num, by simp [DB.resetAll, h.len], by simp, ?_⟩
  intro i x hx j hj
  simp only [DB.resetAll, List.getElem?_replicate] at hx
  split at hx
  · simp at hx; subst hx; simp
  · simp at hx

theorem ones_bit (j : Nat) (hj : j < B) : (ones B).getLsbD j = true := by
  simp [ones, hj]

theorem setAll_spec (hB : 0 < B) (h : Rep n b S) : ∃ b', b.setAll = some b' ∧ Rep n b' (Finset.range n) := by
  have hn := Nat.div_add_mod n B
  have hm := Nat.mod_lt n hB
  unfold DB.setAll zeroUnusedBits
  simp only [h.num, bitIndex]
  split
  · rename_i hk
    have hlen : b.blocks.length = n / B + 1 := by rw [h.len]; unfold computeNumBlocks; rw [if_pos hk]
    rw [hlen, List.replicate_succ', List.getLast?_append]
    simp only [List.getLast?_singleton, Option.some_or]
    refine ⟨_, rfl, rfl, ?_, by simp, ?_⟩
    · simp [← h.len, hlen]
    · intro i x hx j hj
      simp only [List.dropLast_concat] at hx
      rw [Finset.mem_range]
      by_cases hi : i < n / B
      · rw [List.getElem?_append_left (by simpa using hi), List.getElem?_replicate, if_pos hi] at hx
        simp only [Option.some.injEq] at hx
        subst hx
        simp only [ones_bit j hj, true_iff]
        have : (i + 1) * B ≤ (n / B) * B := Nat.mul_le_mul_right _ hi
        rw [Nat.add_mul, Nat.mul_comm (n / B)] at this
        omega
      · rw [List.getElem?_append_right (by simpa using hi)] at hx
        have hi' : i = n / B := by
          by_contra hne
          rw [List.getElem?_eq_none (by simp; omega)] at hx
          simp at hx
        subst hi'
        simp only [List.length_replicate, Nat.sub_self, List.getElem?_cons_zero, Option.some.injEq] at hx
        subst hx
        rw [BitVec.getLsbD_and, ones_bit j hj, BitVec.getLsbD_not, BitVec.getLsbD_shiftLeft]
        rw [Nat.mul_comm]
        by_cases hjk : j < n % B
        · simp [hj, hjk]; omega
        · have : j - n % B < B := by omega
          simp only [hj, hjk, ones_bit _ this]
          simp; omega
  · rename_i hk
    have hk0 : n % B = 0 := by simpa using hk
    have hlen : b.blocks.length = n / B := by rw [h.len]; unfold computeNumBlocks; rw [if_neg hk]; rfl
    refine ⟨_, rfl, rfl, ?_, by simp, ?_⟩
    · simp [h.len]
    · intro i x hx j hj
      simp only [List.getElem?_replicate] at hx
      split at hx
      · rename_i hi
        simp only [Option.some.injEq] at hx
        subst hx
        rw [hlen] at hi
        simp only [ones_bit j hj, true_iff, Finset.mem_range]
        have : (i + 1) * B ≤ (n / B) * B := Nat.mul_le_mul_right _ hi
        rw [Nat.add_mul, Nat.mul_comm (n / B)] at this
        omega
      · simp at hx

theorem test_spec (hB : 0 < B) (h : Rep n b S) {p : Nat} (hp : p < n) : b.test p = some (decide (p ∈ S)) := by
  have hi : blockIndex B p < b.blocks.length := by rw [h.len]; exact numBlocks_lt hB hp
  unfold DB.test
  rw [if_pos (by rw [h.num]; exact hp), List.getElem?_eq_getElem hi]
  simp only [Option.map_some, Option.some.injEq]
  have h1 := and_mask_ne_zero hB b.blocks[blockIndex B p] p
  have h2 := h.bits _ _ (List.getElem?_eq_getElem hi) (p % B) (Nat.mod_lt p hB)
  rw [show blockIndex B p * B + p % B = p from (split_eq hB (Nat.mod_lt p hB)).2 ⟨rfl, rfl⟩] at h2
  rw [Bool.eq_iff_iff, bne_iff_ne, h1, h2]
  simp

theorem countFrom_spec (hB : 0 < B) (h : Rep n b S) : ∀ (k pos : Nat), pos + k = n →
    b.countFrom pos k = some (S.filter (fun q => pos ≤ q)).card := by
  intro k
  induction k with
  | zero =>
    intro pos hp
    simp only [DB.countFrom, Option.some.injEq]
    symm
    rw [Finset.card_eq_zero, Finset.filter_eq_empty_iff]
    intro q hq
    have := h.sub q hq
    omega
  | succ k ih =>
    intro pos hp
    simp only [DB.countFrom]
    rw [test_spec hB h (by omega), ih (pos + 1) (by omega)]
    simp only [Option.bind_eq_bind, Option.bind_some, Option.some.injEq, decide_eq_true_eq]
    have hsplit : S.filter (fun q => pos ≤ q) = (if pos ∈ S then insert pos (S.filter (fun q => pos + 1 ≤ q)) else S.filter (fun q => pos + 1 ≤ q)) := by
      ext q
      split
      · rename_i hm
        simp only [Finset.mem_filter, Finset.mem_insert]
        constructor
        · rintro ⟨h1, h2⟩
          by_cases e : q = pos
          · exact Or.inl e
          · exact Or.inr ⟨h1, by omega⟩
        · rintro (e | ⟨h1, h2⟩)
          · subst e; exact ⟨hm, Nat.le_refl _⟩
          · exact ⟨h1, by omega⟩
      · rename_i hm
        simp only [Finset.mem_filter]
        constructor
        · rintro ⟨h1, h2⟩
          have : q ≠ pos := by intro e; subst e; exact hm h1
          exact ⟨h1, by omega⟩
        · rintro ⟨h1, h2⟩; exact ⟨h1, by omega⟩
    rw [hsplit]
    split
    · rw [Finset.card_insert_of_notMem (by simp)]; omega
    · omega

theorem count_spec (hB : 0 < B) (h : Rep n b S) : b.count = some S.card := by
  unfold DB.count
  rw [h.num, countFrom_spec hB h n 0 (by omega)]
  congr 2
  simp

theorem intersectsLoop_spec : ∀ (xs ys : List (BitVec B)), xs.length = ys.length →
    ∃ r, intersectsLoop xs ys = some r ∧
      (r = true ↔ ∃ (i : Nat) (x y : BitVec B), xs[i]? = some x ∧ ys[i]? = some y ∧ x &&& y ≠ 0#B)
  | [], ys, _ => ⟨false, by simp [intersectsLoop], by simp⟩
  | x :: xs, [], h => by simp at h
  | x :: xs, y :: ys, h => by
    obtain ⟨r, e, hr⟩ := intersectsLoop_spec xs ys (by simpa using h)
    unfold intersectsLoop
    split
    · rename_i hne
      exact ⟨true, rfl, by simp only [true_iff]; exact ⟨0, x, y, rfl, rfl, hne⟩⟩
    · rename_i hne
      refine ⟨r, e, hr.trans ⟨?_, ?_⟩⟩
      · rintro ⟨i, a, b, h1, h2, h3⟩; exact ⟨i + 1, a, b, by simpa using h1, by simpa using h2, h3⟩
      · rintro ⟨i, a, b, h1, h2, h3⟩
        cases i with
        | zero =>
          simp only [List.getElem?_cons_zero, Option.some.injEq] at h1 h2
          subst h1; subst h2; exact absurd h3 hne
        | succ i => exact ⟨i, a, b, by simpa using h1, by simpa using h2, h3⟩

theorem subsetLoop_spec : ∀ (xs ys : List (BitVec B)), xs.length = ys.length →
    ∃ r, subsetLoop xs ys = some r ∧
      (r = false ↔ ∃ (i : Nat) (x y : BitVec B), xs[i]? = some x ∧ ys[i]? = some y ∧ x &&& ~~~y ≠ 0#B)
  | [], ys, _ => ⟨true, by simp [subsetLoop], by simp⟩
  | x :: xs, [], h => by simp at h
  | x :: xs, y :: ys, h => by
    obtain ⟨r, e, hr⟩ := subsetLoop_spec xs ys (by simpa using h)
    unfold subsetLoop
    split
    · rename_i hne
      exact ⟨false, rfl, by simp only [true_iff]; exact ⟨0, x, y, rfl, rfl, hne⟩⟩
    · rename_i hne
      refine ⟨r, e, hr.trans ⟨?_, ?_⟩⟩
      · rintro ⟨i, a, b, h1, h2, h3⟩; exact ⟨i + 1, a, b, by simpa using h1, by simpa using h2, h3⟩
      · rintro ⟨i, a, b, h1, h2, h3⟩
        cases i with
        | zero =>
          simp only [List.getElem?_cons_zero, Option.some.injEq] at h1 h2
          subst h1; subst h2; exact absurd h3 hne
        | succ i => exact ⟨i, a, b, by simpa using h1, by simpa using h2, h3⟩

theorem intersectLoop_spec : ∀ (xs ys : List (BitVec B)), xs.length = ys.length →
    intersectLoop xs ys = some (List.zipWith (· &&& ·) xs ys)
  | [], ys, _ => by simp [intersectLoop]
  | x :: xs, [], h => by simp at h
  | x :: xs, y :: ys, h => by
    unfold intersectLoop
    rw [intersectLoop_spec xs ys (by simpa using h)]; rfl

/-- every position in range is `i * B + j` for a block that exists -/
theorem block_of (hB : 0 < B) (h : Rep n b S) {p : Nat} (hp : p < n) :
    ∃ x, b.blocks[p / B]? = some x ∧ (x.getLsbD (p % B) = true ↔ p ∈ S) := by
  have hi : p / B < b.blocks.length := by rw [h.len]; exact numBlocks_lt hB hp
  refine ⟨_, List.getElem?_eq_getElem hi, ?_⟩
  rw [h.bits _ _ (List.getElem?_eq_getElem hi) _ (Nat.mod_lt p hB), (split_eq hB (Nat.mod_lt p hB)).2 ⟨rfl, rfl⟩]

theorem intersects_spec (hB : 0 < B) (h : Rep n b S) (g : Rep n c T) : b.intersects c = some (decide (S ∩ T ≠ ∅)) := by
  obtain ⟨r, e, hr⟩ := intersectsLoop_spec b.blocks c.blocks (by rw [h.len, g.len])
  unfold DB.intersects
  rw [if_pos (by rw [h.num, g.num]), e]
  congr 1
  rw [Bool.eq_iff_iff, hr, decide_eq_true_eq, ← Finset.nonempty_iff_ne_empty]
  constructor
  · rintro ⟨i, x, y, hx, hy, hne⟩
    obtain ⟨j, hj, h1, h2⟩ := (and_ne_zero x y).1 hne
    exact ⟨i * B + j, Finset.mem_inter.2 ⟨(h.bits i x hx j hj).1 h1, (g.bits i y hy j hj).1 h2⟩⟩
  · rintro ⟨p, hp⟩
    obtain ⟨h1, h2⟩ := Finset.mem_inter.1 hp
    have hpn := h.sub p h1
    obtain ⟨x, hx, ex⟩ := block_of hB h hpn
    obtain ⟨y, hy, ey⟩ := block_of hB g hpn
    exact ⟨p / B, x, y, hx, hy, (and_ne_zero x y).2 ⟨p % B, Nat.mod_lt p hB, ex.2 h1, ey.2 h2⟩⟩

theorem subset_spec (hB : 0 < B) (h : Rep n b S) (g : Rep n c T) : b.isSubsetOf c = some (decide (S ⊆ T)) := by
  obtain ⟨r, e, hr⟩ := subsetLoop_spec b.blocks c.blocks (by rw [h.len, g.len])
  unfold DB.isSubsetOf
  rw [if_pos (by rw [h.num, g.num]), e]
  congr 1
  have : (r = false) ↔ ¬ S ⊆ T := by
    rw [hr]
    constructor
    · rintro ⟨i, x, y, hx, hy, hne⟩ hsub
      obtain ⟨j, hj, h1, h2⟩ := (and_ne_zero x (~~~y)).1 hne
      have h3 := (g.bits i y hy j hj).2 (hsub ((h.bits i x hx j hj).1 h1))
      rw [BitVec.getLsbD_not, h3] at h2
      simp at h2
    · intro hs
      rw [Finset.not_subset] at hs
      obtain ⟨p, h1, h2⟩ := hs
      have hpn := h.sub p h1
      obtain ⟨x, hx, ex⟩ := block_of hB h hpn
      obtain ⟨y, hy, ey⟩ := block_of hB g hpn
      refine ⟨p / B, x, y, hx, hy, (and_ne_zero x _).2 ⟨p % B, Nat.mod_lt p hB, ex.2 h1, ?_⟩⟩
      rw [BitVec.getLsbD_not]
      have : y.getLsbD (p % B) = false := by
        cases hb : y.getLsbD (p % B) with
        | false => rfl
        | true => exact absurd (ey.1 hb) h2
      rw [this]; simp [Nat.mod_lt p hB]
  cases r with
  | false => simp at this; simp [this]
  | true => simp at this; simp [this]

theorem intersect_spec (h : Rep n b S) (g : Rep n c T) : ∃ b', b.intersect c = some b' ∧ Rep n b' (S ∩ T) := by
  have hl : b.blocks.length = c.blocks.length := by rw [h.len, g.len]
  unfold DB.intersect
  rw [if_pos (by rw [h.num, g.num]), intersectLoop_spec _ _ hl]
  refine ⟨_, rfl, h.num, by simp [h.len, g.len], ?_, ?_⟩
  · intro p hp; exact h.sub p (Finset.mem_inter.1 hp).1
  · intro i x hx j hj
    simp only at hx
    rw [List.getElem?_zipWith] at hx
    cases hb : b.blocks[i]? with
    | none => rw [hb] at hx; simp at hx
    | some u =>
      cases hc : c.blocks[i]? with
      | none => rw [hb, hc] at hx; simp at hx
      | some v =>
        rw [hb, hc] at hx
        simp only [Option.some.injEq] at hx
        subst hx
        rw [BitVec.getLsbD_and, Bool.and_eq_true, h.bits i u hb j hj, g.bits i v hc j hj, Finset.mem_inter]

theorem packLoop_spec (hB : 0 < B) : ∀ (bits : List Bool) (i : Nat) (b : DB B) (S : Finset Nat), Rep n b S → i + bits.length = n →
    ∃ b' S', packLoop b i bits = some b' ∧ Rep n b' S' ∧ ∀ q, q ∈ S' ↔ (q ∈ S ∨ (i ≤ q ∧ bits[q - i]? = some true))
  | [], i, b, S, h, _ => ⟨b, S, rfl, h, by simp⟩
  | x :: xs, i, b, S, h, hn => by
    simp only [List.length_cons] at hn
    have key : ∀ q, (q ∈ S ∨ (x = true ∧ q = i)) ∨ (i + 1 ≤ q ∧ xs[q - (i + 1)]? = some true) ↔
        (q ∈ S ∨ (i ≤ q ∧ (x :: xs)[q - i]? = some true)) := by
      intro q
      constructor
      · rintro ((h1 | ⟨h1, h2⟩) | ⟨h1, h2⟩)
        · exact Or.inl h1
        · right; subst h2; simp [h1]
        · right
          refine ⟨by omega, ?_⟩
          rw [show q - i = (q - (i + 1)) + 1 by omega]; simpa using h2
      · rintro (h1 | ⟨h1, h2⟩)
        · exact Or.inl (Or.inl h1)
        · by_cases e : q = i
          · subst e; simp at h2; exact Or.inl (Or.inr ⟨h2, rfl⟩)
          · right
            refine ⟨by omega, ?_⟩
            rw [show q - i = (q - (i + 1)) + 1 by omega] at h2; simpa using h2
    unfold packLoop
    split
    · rename_i hx
      obtain ⟨b1, e1, h1⟩ := set_spec hB h (p := i) (by omega)
      obtain ⟨b', S', e', h', hS⟩ := packLoop_spec hB xs (i + 1) b1 _ h1 (by omega)
      refine ⟨b', S', by rw [e1]; exact e', h', ?_⟩
      intro q
      rw [hS, ← key, Finset.mem_insert]
      simp [hx, or_comm]
    · rename_i hx
      obtain ⟨b', S', e', h', hS⟩ := packLoop_spec hB xs (i + 1) b _ h (by omega)
      refine ⟨b', S', e', h', ?_⟩
      intro q
      rw [hS, ← key]
      simp [hx]

theorem packBitVector_spec (hB : 0 < B) (bits : List Bool) :
    ∃ b S, packBitVector B bits = some b ∧ Rep bits.length b S ∧ ∀ q, q ∈ S ↔ bits[q]? = some true := by
  unfold packBitVector
  rw [viewNumBlocks_eq hB]
  obtain ⟨b, S, e, h, hS⟩ := packLoop_spec hB bits 0 _ ∅ (new_rep (B := B) bits.length) (by omega)
  exact ⟨b, S, e, h, by simpa using hS⟩

end Verif.Bitset
