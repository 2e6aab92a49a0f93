import Verif.Lemmas.PerState

/-
C07: per-state information is a default map keyed by (registry, state).
-/
namespace Verif.PerState

open SegmentedVector

/-! ### The program -/

variable {V E W : Type}

/-- One operation of the program; the second component is what it returned, if it is a
read (`some none`: the program stopped with the documented abort). -/
def step (vec : Vec V E W) (missing : Option E) (w : World V) : Op W → Option (World V × List (Option E))
  | .newRegistry a => (newReg w a).map (·, [])
  | .registerState a => (growReg w a).map (·, [])
  | .destroyRegistry a => (destroyReg w a).map (·, [])
  | .read a id => (readMut vec w a id).map (fun r => (r.1, [some r.2]))
  | .readConst a id => (PerState.readConst vec missing w a id).map (fun r => (r.1, [r.2]))
  | .write a id x => (PerState.write vec w a id x).map (·, [])
  | .destroyObject => (destroyPsi w).map (·, [])

def run (vec : Vec V E W) (missing : Option E) (w : World V) : List (Op W) → Option (World V × List (Option E))
  | [] => some (w, [])
  | o :: os => do
    let (w1, out) ← step vec missing w o
    let (w2, outs) ← run vec missing w1 os
    some (w2, out ++ outs)

/-! ### Simulation -/

section
variable {vec : Vec V E W} {d : E} {ok : W → Prop} {app : E → W → E} {L : Laws vec d ok app}

/-- relation between program and abstract states -/
def Rel (L : Laws vec d ok app) (w : World V) (s : Spec E) : Prop :=
  (s.exists_ = true ∧ ∃ p, w.psi = some p ∧ Inv L w p s.reg) ∨
  (s.exists_ = false ∧ w.psi = none ∧ ∀ a, (w.regs a = none ↔ s.reg a = none) ∧ ∀ r, w.regs a = some r → r.subscribed = false)

theorem step_sim (missing : Option E) (hmiss : missing = none ∨ missing = some d) {w : World V} {s : Spec E}
    (h : Rel L w s) (o : Op W) (ho : Legal ok s o) :
    ∃ w1 out, step vec missing w o = some (w1, out) ∧ Answers missing s o out ∧ Rel L w1 (s.next d app o) := by
  rcases h with ⟨hex, p, hp, hi⟩ | ⟨hex, hp, hi⟩
  · cases o with
    | newRegistry a =>
      obtain ⟨w1, e, e1, h1⟩ := newReg_spec hi (a := a) ho
      exact ⟨w1, [], by simp [step, e], rfl, Or.inl ⟨hex, p, e1.trans hp, h1⟩⟩
    | registerState a =>
      obtain ⟨r, hr⟩ := Option.ne_none_iff_exists'.mp (show s.reg a ≠ none from ho)
      obtain ⟨w1, e, e1, h1⟩ := growReg_spec hi hr
      refine ⟨w1, [], by simp [step, e], rfl, Or.inl ⟨hex, p, e1.trans hp, ?_⟩⟩
      simp only [Spec.next, hr, Option.map_some]; exact h1
    | destroyRegistry a =>
      obtain ⟨r, hr⟩ := Option.ne_none_iff_exists'.mp (show s.reg a ≠ none from ho)
      obtain ⟨w1, p1, e, e1, h1⟩ := destroyReg_spec hp hi hr
      exact ⟨w1, [], by simp [step, e], rfl, Or.inl ⟨hex, p1, e1, h1⟩⟩
    | read a id =>
      obtain ⟨_, r, hr, hid⟩ := ho
      obtain ⟨w1, p1, e, e1, h1⟩ := readMut_spec hp hi hr hid
      refine ⟨w1, [some (r.val id)], by simp [step, e], ⟨r, hr, rfl⟩, Or.inl ⟨hex, p1, e1, ?_⟩⟩
      simp only [Spec.next, hr, Option.map_some]; exact h1
    | readConst a id =>
      obtain ⟨_, r, hr, hid⟩ := ho
      obtain ⟨w1, p1, e, e1, h1⟩ := readConst_spec hp hi hr hid missing
      refine ⟨w1, _, by simp only [step, e]; rfl, ⟨r, hr, ?_⟩, Or.inl ⟨hex, p1, e1, h1⟩⟩
      simp only
      split
      · left; rfl
      · rename_i hlt
        rcases hmiss with hm | hm
        · right; exact ⟨hm, by omega, by rw [hm]⟩
        · left; rw [hm, hi.dflt a r hr id (by omega)]
    | write a id x =>
      obtain ⟨_, ⟨r, hr, hid⟩, hok⟩ := ho
      obtain ⟨w1, p1, e, e1, h1⟩ := write_spec hp hi hr hid hok
      refine ⟨w1, [], by simp [step, e], rfl, Or.inl ⟨hex, p1, e1, ?_⟩⟩
      simp only [Spec.next, hr, Option.map_some]; exact h1
    | destroyObject =>
      refine ⟨_, [], by simp only [step, destroyPsi, hp]; rfl, rfl, Or.inr ⟨rfl, rfl, ?_⟩⟩
      intro a
      refine ⟨?_, ?_⟩
      · have := hi.dom a
        simp only [Spec.next]
        cases hr : w.regs a with
        | none => rw [hr] at this; simp [Option.map_eq_none_iff.mp this.symm]
        | some r =>
          rw [hr] at this
          cases hsr : s.reg a with
          | none => rw [hsr] at this; simp at this
          | some q => simp
      · intro r hr
        simp only [Option.map_eq_some_iff] at hr
        obtain ⟨r0, hr0, rfl⟩ := hr
        split
        · rfl
        · rename_i hns
          cases hsub : r0.subscribed with
          | false => rfl
          | true => exact absurd ((hi.serv a).2 ⟨r0, hr0, hsub⟩) hns
  · cases o with
    | newRegistry a =>
      have hn : s.reg a = none := ho
      have hr := (hi a).1.2 hn
      refine ⟨{ w with regs := upd w.regs a (some { size := 0, subscribed := false }) }, [], by simp only [step, newReg, hr]; rfl, rfl, Or.inr ⟨hex, hp, ?_⟩⟩
      intro b
      by_cases hb : b = a
      · subst hb; simp only [Spec.next, upd_same, if_true]
        constructor
        · simp
        · intro r e; simp only [Option.some.injEq] at e; rw [← e]
      · simp only [Spec.next, upd_ne _ _ hb, if_neg hb]; exact hi b
    | registerState a =>
      have hn : s.reg a ≠ none := ho
      have hr : w.regs a ≠ none := fun e => hn ((hi a).1.1 e)
      obtain ⟨r, hr⟩ := Option.ne_none_iff_exists'.mp hr
      obtain ⟨q, hf⟩ := Option.ne_none_iff_exists'.mp hn
      refine ⟨{ w with regs := upd w.regs a (some { r with size := r.size + 1 }) }, [], by simp only [step, growReg, hr]; rfl, rfl, Or.inr ⟨hex, hp, ?_⟩⟩
      intro b
      by_cases hb : b = a
      · subst hb; simp only [Spec.next, upd_same, if_true, hf]
        constructor
        · simp
        · intro r' e; simp only [Option.some.injEq] at e; rw [← e]; exact (hi b).2 r hr
      · simp only [Spec.next, upd_ne _ _ hb, if_neg hb]; exact hi b
    | destroyRegistry a =>
      have hn : s.reg a ≠ none := ho
      have hr : w.regs a ≠ none := fun e => hn ((hi a).1.1 e)
      obtain ⟨r, hr⟩ := Option.ne_none_iff_exists'.mp hr
      refine ⟨{ w with regs := upd w.regs a none }, [], by simp only [step, destroyReg, hr, (hi a).2 r hr, Option.bind_eq_bind, Option.bind_some]; rfl, rfl, Or.inr ⟨hex, hp, ?_⟩⟩
      intro b
      by_cases hb : b = a
      · subst hb; simp [Spec.next, upd_same]
      · simp only [Spec.next, upd_ne _ _ hb, if_neg hb]; exact hi b
    | read a id => have := ho.1; rw [hex] at this; simp at this
    | readConst a id => have := ho.1; rw [hex] at this; simp at this
    | write a id x => have := ho.1; rw [hex] at this; simp at this
    | destroyObject => have : s.exists_ = true := ho; rw [hex] at this; simp at this

theorem run_sim (missing : Option E) (hmiss : missing = none ∨ missing = some d) (L : Laws vec d ok app) :
    ∀ (os : List (Op W)) {w : World V} {s : Spec E}, Rel L w s → AllLegal d ok app s os →
    ∃ w1 outs, run vec missing w os = some (w1, outs) ∧ Behaves d app missing s os outs := by
  intro os
  induction os with
  | nil => intro w s _ _; exact ⟨w, [], rfl, .nil s⟩
  | cons o os ih =>
    intro w s h hl
    obtain ⟨w1, out, e, ha, h1⟩ := step_sim missing hmiss h o hl.1
    obtain ⟨w2, outs, e2, hb⟩ := ih h1 hl.2
    refine ⟨w2, out ++ outs, ?_, .cons ha hb⟩
    simp [run, e, e2]

end

/-! ### C07 -/

theorem behaves_expected {α : Type} (d : α) {s : Spec α} {os : List (Op α)} {outs : List (Option α)}
    (h : Behaves d (fun _ x => x) (some d) s os outs) : outs = (expected d s os).map some := by
  induction h with
  | nil s => rfl
  | @cons s o os out outs ha _ ih =>
    subst ih
    cases o with
    | read a id =>
      obtain ⟨r, hr, ho⟩ := ha
      subst ho; simp [expected, hr]
    | readConst a id =>
      obtain ⟨r, hr, ho | ⟨hn, _⟩⟩ := ha
      · subst ho; simp [expected, hr]
      · simp at hn
    | newRegistry a => have : out = [] := ha; subst this; rfl
    | registerState a => have : out = [] := ha; subst this; rfl
    | destroyRegistry a => have : out = [] := ha; subst this; rfl
    | write a id x => have : out = [] := ha; subst this; rfl
    | destroyObject => have : out = [] := ha; subst this; rfl

/-- C07 (PerStateInformation).  For every history of creating registries (also at reused
addresses), registering states, destroying registries, const and non-const reads, writes,
and destroying the object: nothing undefined happens (no dangling or deleted vector is
used, no assertion fails), and each read returns the value of that state in the current
registry at that address: the last one written, or the default value. -/
theorem C07_per_state_information {α : Type} (sizeofEntry : Nat) (d : α) (os : List (Op α))
    (h : AllLegal d (fun _ => True) (fun _ x => x) Spec.init os) :
    ∃ w, run (svVec sizeofEntry d) (some d) (World.init (SV α)) os = some (w, (expected d Spec.init os).map some) := by
  obtain ⟨w, outs, e, hb⟩ := run_sim (some d) (Or.inr rfl) (svLaws sizeofEntry d) os
    (w := World.init (SV α)) (s := Spec.init)
    (Or.inl ⟨rfl, _, rfl, Inv.init⟩) h
  exact ⟨w, by rw [e, behaves_expected d hb]⟩

/-- C07 (PerStateArray).  As above for arrays of elements, where a write assigns one element
of the array of a state; a const read of a state registered after the last non-const access to
its registry may stop the program with the abort of the code, and every other read returns
the right array. -/
theorem C07_per_state_array {α : Type} (sizeofElement : Nat) (d : List α) (os : List (Op (Nat × α)))
    (h : AllLegal d (fun w => w.1 < d.length) (fun e w => e.set w.1 w.2) Spec.init os) :
    ∃ w outs, run (savVec sizeofElement d) none (World.init (SAV α)) os = some (w, outs) ∧
      Behaves d (fun e w => e.set w.1 w.2) none Spec.init os outs :=
  run_sim none (Or.inl rfl) (savLaws sizeofElement d) os
    (Or.inl ⟨rfl, _, rfl, Inv.init⟩) h

/-- Non-vacuity: two registries, growth after a write, destruction and reuse of the
address, const and non-const reads. -/
def exOps : List (Op Nat) :=
  [.newRegistry 0, .newRegistry 1, .registerState 0, .write 0 0 7, .registerState 1, .registerState 0,
   .readConst 0 1, .read 1 0, .read 0 0, .write 0 1 5, .readConst 0 1, .destroyRegistry 0, .newRegistry 0, .registerState 0,
   .readConst 0 0, .read 0 0, .destroyObject, .destroyRegistry 1]

example : AllLegal (E := Nat) 42 (fun _ => True) (fun _ x => x) Spec.init exOps := by
  simp [AllLegal, exOps, Legal, Spec.next, Spec.init, SReg.touch]

example : expected 42 Spec.init exOps = [42, 42, 7, 5, 42, 42] := by decide

end Verif.PerState
