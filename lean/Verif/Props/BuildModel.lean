import Verif.Lemmas.BuildValid
import Mathlib.Data.List.Pairwise

/-
C75: the exploration of a Datalog program.
-/
namespace Verif.BuildModel
open Verif.Datalog
variable {P V O : Type} [DecidableEq P] [DecidableEq V] [DecidableEq O]

/-- The exploration ends without error; its result has exactly the atoms that follow loosely, i.e., where the conditions of a rule need to agree on variables of the effect only; no atom is found twice. -/
theorem C75_exploration [Nonempty O] {ar : P → Nat} {facts : List (GAtom P O)} {rules : List (Datalog.Rule P V O)} (har : Arity ar facts rules) (hn : ∀ r ∈ rules, r.Normal) :
    ∃ n out, (∀ m, n ≤ m → computeModel m facts rules = .ok out) ∧ (∀ a, a ∈ out ↔ FollowsLoosely facts rules a) ∧ ∃ new, out = facts ++ new ∧ new.Nodup ∧ ∀ a ∈ new, a ∉ facts := by
  obtain ⟨U, hU⟩ := follows_finite har (fun r hr => (hn r hr).bound)
  obtain ⟨out, index, h1, h2⟩ := loop_spec har hn hU (facts.length + U.length) (state_start hn) (by simp)
  refine ⟨facts.length + U.length, out, fun m hm => ?_, fun a => ⟨fun h => h2.inv.sound a (by simpa using h), state_complete h2⟩, by simpa using h2.news⟩
  unfold computeModel
  rw [if_pos]
  · exact loop_mono _ h1 m hm
  · rw [List.all_eq_true]
    intro x hx
    obtain ⟨r, hr, rfl⟩ := List.mem_map.mp hx
    exact validate_normal (hn r hr)

/-- What follows also follows loosely. -/
theorem follows_loosely {facts : List (GAtom P O)} {rules : List (Datalog.Rule P V O)} {a : GAtom P O} (h : Follows facts rules a) : FollowsLoosely facts rules a := by
  induction h with
  | fact a ha => exact .fact a ha
  | rule r hr σ _ ih => exact .rule r hr σ (fun _ => σ) (fun _ _ _ _ _ => rfl) ih

/-- If the conditions of each rule have no common variables outside of the effect, then both are the same. -/
theorem follows_strictly {facts : List (GAtom P O)} {rules : List (Datalog.Rule P V O)} (hj : ∀ r ∈ rules, r.Joined) {a : GAtom P O} (h : FollowsLoosely facts rules a) : Follows facts rules a := by
  classical
  induction h with
  | fact a ha => exact .fact a ha
  | rule r hr σ τ hτ _ ih =>
    have hsame : ∀ c ∈ r.conditions, ∀ d ∈ r.conditions, ∀ v ∈ c.vars, v ∈ d.vars → τ c v = τ d v := by
      intro c hc d hd v hv hv'
      by_cases hcd : c = d
      · rw [hcd]
      · have hp : r.conditions.Pairwise (fun c d => ∀ v, v ∈ c.vars → v ∈ d.vars → v ∈ r.effect.vars) := (hj r hr).imp fun h v h1 h2 => h v h1 h2
        have hsym : Std.Symm (fun c d : SymAtom P V O => ∀ v, v ∈ c.vars → v ∈ d.vars → v ∈ r.effect.vars) := ⟨fun _ _ h v h1 h2 => h v h2 h1⟩
        have hve := hp.forall hc hd hcd v hv hv'
        rw [hτ c hc v hv hve, hτ d hd v hv' hve]
    let σ' : V → O := fun v => if h : ∃ c ∈ r.conditions, v ∈ c.vars then τ h.choose v else σ v
    have hσ' : ∀ c ∈ r.conditions, ∀ v ∈ c.vars, σ' v = τ c v := by
      intro c hc v hv
      have h : ∃ c ∈ r.conditions, v ∈ c.vars := ⟨c, hc, hv⟩
      simp only [σ', dif_pos h]
      exact hsame _ h.choose_spec.1 c hc v h.choose_spec.2 hv
    have heff : r.effect.inst σ = r.effect.inst σ' := by
      refine inst_congr fun v hv => ?_
      simp only [σ']
      split
      · rename_i h
        exact (hτ _ h.choose_spec.1 v h.choose_spec.2 hv).symm
      · rfl
    rw [heff]
    refine .rule r hr σ' fun c hc => ?_
    rw [inst_congr (hσ' c hc)]
    exact ih c hc

/-- Every atom that follows from the facts by the rules is found. -/
theorem C75_complete [Nonempty O] {ar : P → Nat} {facts : List (GAtom P O)} {rules : List (Datalog.Rule P V O)} (har : Arity ar facts rules) (hn : ∀ r ∈ rules, r.Normal) :
    ∃ n out, (∀ m, n ≤ m → computeModel m facts rules = .ok out) ∧ ∀ a, Follows facts rules a → a ∈ out := by
  obtain ⟨n, out, h1, h2, _⟩ := C75_exploration har hn
  exact ⟨n, out, h1, fun a h => (h2 a).mpr (follows_loosely h)⟩

/-- If the conditions of each rule have no common variables outside of the effect, then the exploration finds exactly the atoms that follow. -/
theorem C75_exact [Nonempty O] {ar : P → Nat} {facts : List (GAtom P O)} {rules : List (Datalog.Rule P V O)} (har : Arity ar facts rules) (hn : ∀ r ∈ rules, r.Normal) (hj : ∀ r ∈ rules, r.Joined) :
    ∃ n out, (∀ m, n ≤ m → computeModel m facts rules = .ok out) ∧ (∀ a, a ∈ out ↔ Follows facts rules a) ∧ (facts.Nodup → out.Nodup) := by
  obtain ⟨n, out, h1, h2, new, h3, h4, h5⟩ := C75_exploration har hn
  refine ⟨n, out, h1, fun a => (h2 a).trans ⟨follows_strictly hj, follows_loosely⟩, fun hf => ?_⟩
  rw [h3, List.nodup_append]
  exact ⟨hf, h4, fun x hx y hy hxy => h5 y hy (hxy ▸ hx)⟩

/-- The result does not depend on the order of the facts (the code sorts them) or of the rules, as a set. -/
theorem C75_order [Nonempty O] {ar : P → Nat} {facts facts' : List (GAtom P O)} {rules rules' : List (Datalog.Rule P V O)} (har : Arity ar facts rules) (hn : ∀ r ∈ rules, r.Normal) (hf : ∀ a, a ∈ facts ↔ a ∈ facts') (hr : ∀ r, r ∈ rules ↔ r ∈ rules')
    {m m' : Nat} {out out' : List (GAtom P O)} (h : computeModel m facts rules = .ok out) (h' : computeModel m' facts' rules' = .ok out') (a : GAtom P O) : a ∈ out ↔ a ∈ out' := by
  have hn' : ∀ r ∈ rules', r.Normal := fun r hr' => hn r ((hr r).mpr hr')
  have har' : Arity ar facts' rules' := ⟨fun b hb => har.1 b ((hf b).mpr hb), fun r hr' => har.2 r ((hr r).mpr hr')⟩
  have hsame : ∀ {f1 f2 : List (GAtom P O)} {r1 r2 : List (Datalog.Rule P V O)} {b : GAtom P O}, (∀ a ∈ f1, a ∈ f2) → (∀ r ∈ r1, r ∈ r2) → FollowsLoosely f1 r1 b → FollowsLoosely f2 r2 b := by
    intro f1 f2 r1 r2 b h1 h2 hb
    induction hb with
    | fact b hb => exact .fact b (h1 b hb)
    | rule r hr σ τ hτ _ ih => exact .rule r (h2 r hr) σ τ hτ ih
  have hfix : ∀ {f : List (GAtom P O)} {rs : List (Datalog.Rule P V O)} {k : Nat} {o : List (GAtom P O)}, Arity ar f rs → (∀ r ∈ rs, r.Normal) → computeModel k f rs = .ok o → ∀ b, b ∈ o ↔ FollowsLoosely f rs b := by
    intro f rs k o ha hn hk b
    obtain ⟨n, out0, h1, h2, _⟩ := C75_exploration ha hn
    have h3 := h1 (max n k) (Nat.le_max_left _ _)
    have h4 : computeModel (max n k) f rs = .ok o := by
      unfold computeModel at hk ⊢
      split at hk
      · rename_i hv
        rw [if_pos hv]
        exact loop_mono _ hk _ (Nat.le_max_right _ _)
      · cases hk
    rw [h3] at h4
    cases h4
    exact h2 b
  rw [hfix har hn h, hfix har' hn' h']
  exact ⟨hsame (fun b => (hf b).mp) (fun r => (hr r).mp), hsame (fun b => (hf b).mpr) (fun r => (hr r).mpr)⟩

/-! Examples.  Predicates 0 … are numbers, as are variables and objects. -/

namespace C75Example
/-- an atom -/
def g (p : Nat) (args : List Nat) : GAtom Nat Nat := ⟨p, args⟩
/-- an atom with variables -/
def s (p : Nat) (args : List (Term Nat Nat)) : SymAtom Nat Nat Nat := ⟨p, args⟩

/-- edges 0(x, y) of a graph -/
def facts : List (GAtom Nat Nat) := [g 0 [1, 2], g 0 [2, 3], g 0 [3, 1], g 1 [7]]
/-- paths 2(x, y): 2(x, y) ← 0(x, y); 3(x, y, z) ← 2(x, y), 0(y, z); 2(x, z) ← 3(x, y, z); 4(x, 9, y) ← 1(x), 0(y, 1) -/
def rules : List (Datalog.Rule Nat Nat Nat) :=
  [⟨.project, s 2 [.var 0, .var 1], [s 0 [.var 0, .var 1]]⟩,
   ⟨.join, s 3 [.var 0, .var 1, .var 2], [s 2 [.var 0, .var 1], s 0 [.var 1, .var 2]]⟩,
   ⟨.project, s 2 [.var 0, .var 2], [s 3 [.var 0, .var 1, .var 2]]⟩,
   ⟨.product, s 4 [.var 0, .const 9, .var 1], [s 1 [.var 0], s 0 [.var 1, .const 1]]⟩]

/-- numbers of arguments -/
def ar : Nat → Nat := fun p => match p with | 1 => 1 | 3 => 3 | 4 => 3 | _ => 2

theorem arity : Arity ar facts rules := by
  refine ⟨by decide, by decide⟩

theorem normal : ∀ r ∈ rules, r.Normal := by
  intro r hr
  simp only [rules, List.mem_cons, List.not_mem_nil, or_false] at hr
  rcases hr with rfl | rfl | rfl | rfl
  · exact ⟨by decide, by decide, by decide, fun h => by simp at h, fun h => by simp at h, fun _ => ⟨_, rfl⟩⟩
  · exact ⟨by decide, by decide, by decide, fun _ => ⟨_, _, rfl, ⟨1, by decide, by decide⟩, by decide, by decide⟩, fun h => by simp at h, fun h => by simp at h⟩
  · exact ⟨by decide, by decide, by decide, fun h => by simp at h, fun h => by simp at h, fun _ => ⟨_, rfl⟩⟩
  · exact ⟨by decide, by decide, by decide, fun h => by simp at h, fun _ => ⟨by decide, by decide, by decide⟩, fun h => by simp at h⟩

theorem joined : ∀ r ∈ rules, r.Joined := by
  unfold Datalog.Rule.Joined
  decide

example : ∃ n out, (∀ m, n ≤ m → computeModel m facts rules = .ok out) ∧ (∀ a, a ∈ out ↔ Follows facts rules a) ∧ (facts.Nodup → out.Nodup) := C75_exact arity normal joined

/-- the atoms of an outcome -/
def atoms : Outcome Nat Nat → List (GAtom Nat Nat)
  | .ok l => l
  | _ => []

/-- all paths are found, and one atom by the product -/
example : (atoms (computeModel 40 facts rules)).length = 4 + 9 + 9 + 1 ∧ g 4 [7, 9, 3] ∈ atoms (computeModel 40 facts rules) ∧ g 4 [7, 9, 2] ∉ atoms (computeModel 40 facts rules) := by decide +kernel
end C75Example

namespace C75Projected
open C75Example

/-- 2(x) ← 0(x, y), 1(y) -/
def rules : List (Datalog.Rule Nat Nat Nat) := [⟨.join, s 2 [.var 0], [s 0 [.var 0, .var 1], s 1 [.var 1]]⟩]
/-- 0(5, 6) and 1(7) -/
def facts : List (GAtom Nat Nat) := [g 0 [5, 6], g 1 [7]]

theorem normal : ∀ r ∈ rules, r.Normal := by
  intro r hr
  simp only [rules, List.mem_cons, List.not_mem_nil, or_false] at hr
  subst hr
  exact ⟨by decide, by decide, by decide, fun _ => ⟨_, _, rfl, ⟨1, by decide, by decide⟩, by decide, by decide⟩, fun h => by simp at h, fun h => by simp at h⟩
end C75Projected

/-- The exploration finds more atoms than those that follow, in general: from 0(5, 6) and 1(7) it derives 2(5) by the rule 2(x) ← 0(x, y), 1(y), which passes all assertions, because the common variable y is not in the effect. -/
theorem C75_projected_join_fails : (∀ r ∈ C75Projected.rules, r.Normal) ∧ (∃ out, computeModel 5 C75Projected.facts C75Projected.rules = .ok out ∧ (⟨2, [5]⟩ : GAtom Nat Nat) ∈ out) ∧ ¬ Follows C75Projected.facts C75Projected.rules ⟨2, [5]⟩ := by
  refine ⟨C75Projected.normal, ⟨[⟨0, [5, 6]⟩, ⟨1, [7]⟩, ⟨2, [5]⟩], by decide +kernel, by decide⟩, ?_⟩
  have hfix : ∀ a, Follows C75Projected.facts C75Projected.rules a → a ∈ C75Projected.facts := by
    intro a h
    induction h with
    | fact a ha => exact ha
    | rule r hr σ _ ih =>
      exfalso
      simp only [C75Projected.rules, List.mem_cons, List.not_mem_nil, or_false] at hr
      subst hr
      have h1 := ih _ (List.mem_cons_self ..)
      have h2 := ih _ (List.mem_cons_of_mem _ (List.mem_cons_self ..))
      simp [C75Projected.facts, C75Example.s, C75Example.g, SymAtom.inst, Term.value] at h1 h2
      omega
  intro h
  exact absurd (hfix _ h) (by decide)

end Verif.BuildModel
