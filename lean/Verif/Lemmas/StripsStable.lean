import Verif.Lemmas.StripsConds

/-
States of grounded tasks: every set of basic atoms has exactly one completion by derived atoms; consistent states are represented by values of variables.
-/
namespace Verif.Strips
open Verif.SasFile

section
variable {α : Type} {t : StripsTask α}

theorem layer_unique (h : t.Stratified) {p : α} {n m : Nat} (hn : (p, n) ∈ t.layers) (hm : (p, m) ∈ t.layers) : n = m := by
  have := h.once
  have := List.inj_on_of_nodup_map this hn hm rfl
  simpa using this

/-- atoms of layer `n` that follow, given the true derived atoms below -/
inductive DerL (t : StripsTask α) (b low : α → Prop) (n : Nat) : α → Prop where
  | rule (r : Rule α) (hr : r ∈ t.axioms) (hl : (r.head, n) ∈ t.layers)
      (hneg : ∀ l ∈ r.body, l.negated = true → t.Derived l.atom → ¬ low l.atom)
      (hneg' : ∀ l ∈ r.body, l.negated = true → ¬ t.Derived l.atom → ¬ b l.atom)
      (hbase : ∀ l ∈ r.body, l.negated = false → ¬ t.Derived l.atom → b l.atom)
      (hlow : ∀ l ∈ r.body, l.negated = false → t.Derived l.atom → (l.atom, n) ∉ t.layers → low l.atom)
      (hpos : ∀ l ∈ r.body, l.negated = false → (l.atom, n) ∈ t.layers → DerL t b low n l.atom) :
      DerL t b low n r.head

def upto (t : StripsTask α) (b : α → Prop) : Nat → α → Prop
  | 0, _ => False
  | n + 1, p => upto t b n p ∨ DerL t b (upto t b n) n p

theorem DerL.layer {b low : α → Prop} {n : Nat} {p : α} (h : DerL t b low n p) : (p, n) ∈ t.layers := by
  cases h with
  | rule r _ hl _ _ _ _ _ => exact hl

theorem upto_layer {b : α → Prop} : ∀ {n : Nat} {p : α}, upto t b n p → ∃ m, m < n ∧ (p, m) ∈ t.layers ∧ DerL t b (upto t b m) m p
  | 0, _, h => h.elim
  | n + 1, p, h => by
    rcases h with h | h
    · obtain ⟨m, h1, h2⟩ := upto_layer h
      exact ⟨m, by omega, h2⟩
    · exact ⟨n, by omega, h.layer, h⟩

theorem upto_mono {b : α → Prop} {p : α} {n m : Nat} (h : n ≤ m) (hu : upto t b n p) : upto t b m p := by
  induction h with
  | refl => exact hu
  | step _ ih => exact Or.inl ih

open Classical in
/-- the completion of a set of basic atoms -/
def completion (t : StripsTask α) (b : α → Prop) (p : α) : Prop := if t.Derived p then ∃ n, upto t b n p else b p

theorem completes (h : t.Stratified) (b : α → Prop) : t.Completes b (completion t b) := by
  have hbase : ∀ p, ¬ t.Derived p → (completion t b p ↔ b p) := by
    intro p hp
    simp [completion, hp]
  have hder : ∀ p, t.Derived p → (completion t b p ↔ ∃ n, upto t b n p) := by
    intro p hp
    simp [completion, hp]
  refine ⟨hbase, fun p hp => ⟨fun hc => ?_, fun hd => ?_⟩⟩
  · obtain ⟨n, hn⟩ := (hder p hp).mp hc
    obtain ⟨m, -, hm, hD⟩ := upto_layer hn
    clear hn hc hp
    revert p
    induction m using Nat.strong_induction_on with
    | _ m ih =>
      intro p hm hD
      induction hD with
      | rule r hr hl hneg hneg' hb hlow hpos ihp =>
        refine .rule r hr ?_ ?_ ?_
        · intro l hlb hln
          by_cases hd : t.Derived l.atom
          · rw [hder _ hd]
            rintro ⟨k, hk⟩
            obtain ⟨j, _, hj, hjd⟩ := upto_layer hk
            have := (h.layered r hr l hlb j m hj hl).2 hln
            exact hneg l hlb hln hd (upto_mono (n := j + 1) this (Or.inr hjd))
          · rw [hbase _ hd]
            exact hneg' l hlb hln hd
        · intro l hlb hln hd
          rw [hbase _ hd]
          exact hb l hlb hln hd
        · intro l hlb hln hd
          by_cases hlm : (l.atom, m) ∈ t.layers
          · exact ihp l hlb hln hlm hlm
          · obtain ⟨j, hj, hj2, hj3⟩ := upto_layer (hlow l hlb hln hd hlm)
            exact ih j hj _ hj2 hj3
  · clear hp
    have : ∃ n, upto t b n p := by
      induction hd with
      | rule r hr hneg hb hpos ih =>
        obtain ⟨m, hm⟩ := h.heads r hr
        refine ⟨m + 1, Or.inr (.rule r hr hm ?_ ?_ ?_ ?_ ?_)⟩
        · intro l hlb hln hd hu
          exact hneg l hlb hln ((hder _ hd).mpr ⟨m, hu⟩)
        · intro l hlb hln hd hu
          exact hneg l hlb hln ((hbase _ hd).mpr hu)
        · intro l hlb hln hd
          exact (hbase _ hd).mp (hb l hlb hln hd)
        · intro l hlb hln hd hnm
          obtain ⟨k, hk⟩ := ih l hlb hln hd
          obtain ⟨j, _, hj, hjd⟩ := upto_layer hk
          have hle := (h.layered r hr l hlb j m hj hm).1
          have hne : j ≠ m := by
            rintro rfl
            exact hnm hj
          exact upto_mono (n := j + 1) (by omega) (Or.inr hjd)
        · intro l hlb hln hlm
          obtain ⟨k, hk⟩ := ih l hlb hln ⟨m, hlm⟩
          obtain ⟨j, _, hj, hjd⟩ := upto_layer hk
          rw [layer_unique h hj hlm] at hjd
          exact hjd
    by_cases hp : t.Derived p
    · exact (hder p hp).mpr this
    · obtain ⟨n, hn⟩ := this
      obtain ⟨m, _, hm, _⟩ := upto_layer hn
      exact absurd ⟨m, hm⟩ hp

theorem completes_unique (h : t.Stratified) {b b' s s' : α → Prop} (hb : ∀ p, ¬ t.Derived p → (b p ↔ b' p)) (hs : t.Completes b s) (hs' : t.Completes b' s') : s = s' := by
  have hbase : ∀ p, ¬ t.Derived p → (s p ↔ s' p) := fun p hp => by rw [hs.base p hp, hs'.base p hp, hb p hp]
  have half : ∀ {s s' : α → Prop} (n : Nat), (∀ p, ¬ t.Derived p → (s p ↔ s' p)) → (∀ (m : Nat) (p : α), m < n → (p, m) ∈ t.layers → (s p ↔ s' p)) →
      ∀ p, t.Derives s p → ∀ m, m ≤ n → (p, m) ∈ t.layers → t.Derives s' p := by
    intro s s' n hbase hlow p hd
    induction hd with
    | rule r hr hneg hb hpos ih =>
      intro m hmn hm
      refine .rule r hr ?_ ?_ ?_
      · intro l hl hln
        by_cases hd : t.Derived l.atom
        · obtain ⟨k, hk⟩ := hd
          have := (h.layered r hr l hl k m hk hm).2 hln
          rw [← hlow k _ (by omega) hk]
          exact hneg l hl hln
        · rw [← hbase _ hd]
          exact hneg l hl hln
      · intro l hl hln hd
        rw [← hbase _ hd]
        exact hb l hl hln hd
      · intro l hl hln hd
        obtain ⟨k, hk⟩ := hd
        have := (h.layered r hr l hl k m hk hm).1
        exact ih l hl hln ⟨k, hk⟩ k (by omega) hk
  have main : ∀ (n : Nat) (p : α), (p, n) ∈ t.layers → (s p ↔ s' p) := by
    intro n
    induction n using Nat.strong_induction_on with
    | _ n ih =>
      intro p hp
      rw [hs.derived p ⟨n, hp⟩, hs'.derived p ⟨n, hp⟩]
      exact ⟨fun hd => half n hbase (fun m p hm hpm => ih m hm p hpm) p hd n le_rfl hp,
        fun hd => half n (fun p hp => (hbase p hp).symm) (fun m p hm hpm => (ih m hm p hpm).symm) p hd n le_rfl hp⟩
  funext p
  by_cases hp : t.Derived p
  · obtain ⟨n, hn⟩ := hp
    exact propext (main n p hn)
  · exact propext (hbase p hp)

theorem Reachable.step {s s' : α → Prop} {a : Action α} (h : t.Reachable s) (hs : t.Step s a s') : t.Reachable s' := by
  obtain ⟨s0, as, h0, hr⟩ := h
  refine ⟨s0, as ++ [a], h0, ?_⟩
  clear h0
  induction hr with
  | nil s => exact .cons _ _ _ _ _ hs (.nil _)
  | cons s b s1 as u hb _ ih => exact .cons _ _ _ _ _ hb (ih hs)

end

end Verif.Strips

namespace Verif.StripsToSas
open Verif.SasFile
open Verif.Strips

section
variable {α : Type}

open Classical in
/-- the values that represent a state -/
noncomputable def enc (groups : List (List α)) (s : α → Prop) : State := groups.map (fun g => g.findIdx (fun p => decide (s p)))

/-- at most one atom of each group is true -/
def Consistent (groups : List (List α)) (s : α → Prop) : Prop := ∀ g ∈ groups, ∀ p ∈ g, ∀ q ∈ g, s p → s q → p = q

theorem enc_represents {groups : List (List α)} {s : α → Prop} (hn : ∀ g ∈ groups, g.Nodup) (hc : Consistent groups s) : Represents groups s (enc groups s) := by
  classical
  intro v g hg
  refine ⟨g.findIdx (fun p => decide (s p)), by simp [enc, hg], ?_, ?_⟩
  · have := List.findIdx_le_length (xs := g) (p := fun p => decide (s p))
    omega
  · intro i p hp
    have hgm := List.mem_of_getElem? hg
    constructor
    · intro he
      have hlt : g.findIdx (fun p => decide (s p)) < g.length := by
        rw [he]
        exact (List.getElem?_eq_some_iff.mp hp).1
      have h1 := List.findIdx_getElem (w := hlt)
      have h2 : g[g.findIdx (fun p => decide (s p))]? = some p := by rw [he]; exact hp
      rw [List.getElem?_eq_getElem hlt, Option.some.injEq] at h2
      rw [h2] at h1
      exact of_decide_eq_true h1
    · intro hs
      have hlt : g.findIdx (fun p => decide (s p)) < g.length := List.findIdx_lt_length_of_exists ⟨p, List.mem_of_getElem? hp, by simpa using hs⟩
      have h1 := List.findIdx_getElem (w := hlt)
      have h2 := hc g hgm _ (List.getElem_mem hlt) p (List.mem_of_getElem? hp) (of_decide_eq_true h1) hs
      obtain ⟨hi, hpi⟩ := List.getElem?_eq_some_iff.mp hp
      exact (List.Nodup.getElem_inj_iff (hn g hgm)).mp (h2.trans hpi.symm)

theorem enc_length (groups : List (List α)) (s : α → Prop) : (enc groups s).length = groups.length := by simp [enc]

/-- a variable has the same value in two states, if the same of its atoms are true -/
theorem enc_congr {groups : List (List α)} {s s' : α → Prop} {v : Nat} (h : ∀ g, groups[v]? = some g → ∀ p ∈ g, (s p ↔ s' p)) : (enc groups s)[v]? = (enc groups s')[v]? := by
  classical
  unfold enc
  rw [List.getElem?_map, List.getElem?_map]
  cases hg : groups[v]? with
  | none => rfl
  | some g =>
    simp only [Option.map_some, Option.some.injEq]
    have : ∀ l : List α, (∀ p ∈ l, (s p ↔ s' p)) → l.findIdx (fun p => decide (s p)) = l.findIdx (fun p => decide (s' p)) := by
      intro l
      induction l with
      | nil => intro; rfl
      | cons a l ih =>
        intro h
        rw [List.findIdx_cons, List.findIdx_cons, ih (fun p hp => h p (List.mem_cons_of_mem _ hp))]
        simp [h a (by simp)]
    exact this g (h g hg)

/-- no atom of the group is true -/
theorem enc_none {groups : List (List α)} {s : α → Prop} {v : Nat} {g : List α} (hg : groups[v]? = some g) (h : ∀ p ∈ g, ¬ s p) : (enc groups s)[v]? = some g.length := by
  classical
  unfold enc
  rw [List.getElem?_map, hg, Option.map_some, Option.some.injEq]
  exact List.findIdx_eq_length_of_false (fun p hp => by simpa using h p hp)

end
end Verif.StripsToSas
