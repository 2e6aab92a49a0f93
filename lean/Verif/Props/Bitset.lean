import Verif.Lemmas.Bitset

/-
C08: bitsets are finite sets of positions.
-/
namespace Verif.Bitset

/-- Operations on numbered bitsets `v`, `u`, all with the same number of bits. -/
inductive Op
  | set (v pos : Nat)
  | reset (v pos : Nat)
  | setAll (v : Nat)
  | resetAll (v : Nat)
  | intersect (v u : Nat)

/-- Questions asked about the bitsets. -/
inductive Query
  | test (v pos : Nat)
  | count (v : Nat)
  | intersects (v u : Nat)
  | isSubset (v u : Nat)

/-! ### The program -/

variable {B : Nat}

def put {β : Type} (f : Nat → β) (v : Nat) (x : β) : Nat → β := fun u => if u = v then x else f u

def step (m : Nat → DB B) : Op → Option (Nat → DB B)
  | .set v p => ((m v).set p).map (put m v)
  | .reset v p => ((m v).reset p).map (put m v)
  | .setAll v => (m v).setAll.map (put m v)
  | .resetAll v => some (put m v (m v).resetAll)
  | .intersect v u => ((m v).intersect (m u)).map (put m v)

def run (m : Nat → DB B) : List Op → Option (Nat → DB B)
  | [] => some m
  | o :: os => (step m o).bind (fun m1 => run m1 os)

/-- answers as numbers; `false` is 0 and `true` is 1 -/
def ask (m : Nat → DB B) : Query → Option Nat
  | .test v p => ((m v).test p).map Bool.toNat
  | .count v => (m v).count
  | .intersects v u => ((m v).intersects (m u)).map Bool.toNat
  | .isSubset v u => ((m v).isSubsetOf (m u)).map Bool.toNat

/-! ### Specification: sets of positions below `n` -/

def specStep (n : Nat) (s : Nat → Finset Nat) : Op → (Nat → Finset Nat)
  | .set v p => put s v (insert p (s v))
  | .reset v p => put s v (s v \ {p})
  | .setAll v => put s v (Finset.range n)
  | .resetAll v => put s v ∅
  | .intersect v u => put s v (s v ∩ s u)

def specRun (n : Nat) (s : Nat → Finset Nat) (os : List Op) : Nat → Finset Nat := os.foldl (specStep n) s

/-- positions have to be in range -/
def Op.Legal (n : Nat) : Op → Prop
  | .set _ p => p < n
  | .reset _ p => p < n
  | _ => True

def Query.Legal (n : Nat) : Query → Prop
  | .test _ p => p < n
  | _ => True

open Classical in
noncomputable def specAsk (s : Nat → Finset Nat) : Query → Nat
  | .test v p => if p ∈ s v then 1 else 0
  | .count v => (s v).card
  | .intersects v u => if ∃ p, p ∈ s v ∧ p ∈ s u then 1 else 0
  | .isSubset v u => if ∀ p, p ∈ s v → p ∈ s u then 1 else 0

/-! ### Proof -/

theorem step_spec (hB : 0 < B) {n : Nat} {m : Nat → DB B} {s : Nat → Finset Nat} (h : ∀ v, Rep n (m v) (s v)) (o : Op)
    (ho : o.Legal n) : ∃ m', step m o = some m' ∧ ∀ v, Rep n (m' v) (specStep n s o v) := by
  have hput : ∀ v b S, Rep n b S → ∀ u, Rep n (put m v b u) (put s v S u) := by
    intro v b S hb u
    unfold put; split
    · exact hb
    · exact h u
  cases o with
  | set v p =>
    obtain ⟨b, e, hb⟩ := set_spec hB (h v) (p := p) ho
    exact ⟨_, by simp only [step, e]; rfl, hput v b _ hb⟩
  | reset v p =>
    obtain ⟨b, e, hb⟩ := reset_spec hB (h v) (p := p) ho
    refine ⟨_, by simp only [step, e]; rfl, hput v b _ ?_⟩
    rwa [Finset.sdiff_singleton_eq_erase]
  | setAll v =>
    obtain ⟨b, e, hb⟩ := setAll_spec hB (h v)
    exact ⟨_, by simp only [step, e]; rfl, hput v b _ hb⟩
  | resetAll v => exact ⟨_, rfl, hput v _ _ (resetAll_spec (h v))⟩
  | intersect v u =>
    obtain ⟨b, e, hb⟩ := intersect_spec (h v) (h u)
    exact ⟨_, by simp only [step, e]; rfl, hput v b _ hb⟩

theorem run_spec (hB : 0 < B) {n : Nat} : ∀ (os : List Op) {m : Nat → DB B} {s : Nat → Finset Nat}, (∀ v, Rep n (m v) (s v)) →
    (∀ o ∈ os, o.Legal n) → ∃ m', run m os = some m' ∧ ∀ v, Rep n (m' v) (specRun n s os v)
  | [], m, s, h, _ => ⟨m, rfl, h⟩
  | o :: os, m, s, h, hl => by
    obtain ⟨m1, e1, h1⟩ := step_spec hB h o (hl o (by simp))
    obtain ⟨m2, e2, h2⟩ := run_spec hB os h1 (fun o ho => hl o (by simp [ho]))
    exact ⟨m2, by simp [run, e1, e2], h2⟩

theorem ask_spec (hB : 0 < B) {n : Nat} {m : Nat → DB B} {s : Nat → Finset Nat} (h : ∀ v, Rep n (m v) (s v)) (q : Query)
    (hq : q.Legal n) : ask m q = some (specAsk s q) := by
  cases q with
  | test v p =>
    simp only [ask, test_spec hB (h v) (p := p) hq, specAsk, Option.map_some]
    by_cases hp : p ∈ s v <;> simp [hp]
  | count v => simp only [ask, count_spec hB (h v), specAsk]
  | intersects v u =>
    simp only [ask, intersects_spec hB (h v) (h u), specAsk, Option.map_some, ← Finset.nonempty_iff_ne_empty,
      Finset.Nonempty, Finset.mem_inter]
    by_cases hp : ∃ p, p ∈ s v ∧ p ∈ s u <;> simp [hp]
  | isSubset v u =>
    simp only [ask, subset_spec hB (h v) (h u), specAsk, Option.map_some, Finset.subset_iff]
    by_cases hp : ∀ p, p ∈ s v → p ∈ s u
    · rw [if_pos hp, decide_eq_true hp]; rfl
    · rw [if_neg hp, decide_eq_false hp]; rfl

/-- C08 (DynamicBitset).  For every block width `B > 0`, number of bits `n` and history of
operations on bitsets that start empty: no assertion fails, no block outside a bitset is
accessed, and every question is answered as for the sets of positions described by the
history. -/
theorem C08_dynamic_bitset (B : Nat) (hB : 0 < B) (n : Nat) (os : List Op) (hos : ∀ o ∈ os, o.Legal n)
    (q : Query) (hq : q.Legal n) :
    ∃ m, run (fun _ => DB.new B n) os = some m ∧ ask m q = some (specAsk (specRun n (fun _ => ∅) os) q) := by
  obtain ⟨m, e, h⟩ := run_spec hB os (fun _ => new_rep (B := B) n) hos
  exact ⟨m, e, ask_spec hB h q hq⟩

/-- C08 (PerStateBitset).  The same for bitset views that start with the packed default
bits of a per-state bitset. -/
theorem C08_bitset_view (B : Nat) (hB : 0 < B) (bits : List Bool) :
    ∃ b : DB B, packBitVector B bits = some b ∧
      ∀ (os : List Op), (∀ o ∈ os, o.Legal bits.length) → ∀ (q : Query), q.Legal bits.length →
        ∃ m, run (fun _ => b) os = some m ∧
          ask m q = some (specAsk (specRun bits.length (fun _ => (Finset.range bits.length).filter (fun p => bits[p]? = some true)) os) q) := by
  obtain ⟨b, S, e, h, hS⟩ := packBitVector_spec hB bits
  have hSeq : S = (Finset.range bits.length).filter (fun p => bits[p]? = some true) := by
    ext p
    rw [hS, Finset.mem_filter, Finset.mem_range]
    constructor
    · intro hp; exact ⟨(List.getElem?_eq_some_iff.mp hp).1, hp⟩
    · exact fun hp => hp.2
  subst hSeq
  refine ⟨b, e, ?_⟩
  intro os hos q hq
  obtain ⟨m, e, h⟩ := run_spec hB os (fun _ => h) hos
  exact ⟨m, e, ask_spec hB h q hq⟩

/-- Non-vacuity: 5 bits in blocks of 4 bits (a partially used last block). -/
def exOps : List Op := [.setAll 0, .reset 0 4, .set 1 4, .set 1 2, .set 2 4, .intersect 1 0]

example : ∀ o ∈ exOps, o.Legal 5 := by simp [exOps, Op.Legal]

example : ((run (fun _ => DB.new 4 5) exOps).bind (fun m => ask m (.count 0))) = some 4 ∧
    ((run (fun _ => DB.new 4 5) exOps).bind (fun m => ask m (.isSubset 1 0))) = some 1 ∧
    ((run (fun _ => DB.new 4 5) exOps).bind (fun m => ask m (.intersects 0 2))) = some 0 := by decide

end Verif.Bitset
