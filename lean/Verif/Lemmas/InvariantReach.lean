import Verif.Lemmas.InvariantBalance
import Verif.Lemmas.MasBasic
import Mathlib.Data.List.NodupEquivFin

/-
Balanced invariants are true in all reachable states; groups of atoms.
-/
namespace Verif.Invariants
open Verif.Datalog Verif.Lifted

variable {P V O T F : Type}

theorem run_snoc {L : LTask P V O T F} {s u u' : GAtom P O → Prop} {p : List (List Char × Nat)} (h : L.Run s p u) {A : LAction P V O T F} {σ : V → O} {n : Nat} (hs : L.Step u A σ u') (hc : L.CostIs A σ n) : L.Run s (p ++ [(L.instName A σ, n)]) u' := by
  induction h with
  | nil s => exact .cons _ _ _ _ _ _ _ hs hc (.nil _)
  | cons s B ρ m s' p u h1 h2 _ ih => exact .cons _ _ _ _ _ _ _ h1 h2 (ih hs)

theorem lifted_ind {L : LTask P V O T F} {Q : (GAtom P O → Prop) → Prop} (h0 : ∀ s, L.Initial s → Q s) (h1 : ∀ s A σ s', L.Reachable s → Q s → L.Step s A σ s' → Q s') {s : GAtom P O → Prop} (h : L.Reachable s) : Q s := by
  obtain ⟨s0, p, hi, hr⟩ := h
  have key : ∀ s p u, L.Run s p u → L.Reachable s → Q s → Q u := by
    intro s p u h
    induction h with
    | nil s => exact fun _ h => h
    | cons s A σ n s' p u hs hc _ ih =>
      intro hr hq
      obtain ⟨s1, p1, k1, k2⟩ := hr
      exact ih ⟨s1, _, k1, run_snoc k2 hs hc⟩ (h1 s A σ s' ⟨s1, p1, k1, k2⟩ hq hs)
  exact key _ _ _ hr ⟨s0, [], hi, .nil _⟩ (h0 s0 hi)

theorem eq_static {L : LTask P V O T F} {ar : P → Nat} {fnAr : F → Nat} (hL : L.Ok ar fnAr) {s : GAtom P O → Prop} (h : L.Reachable s) (args : List O) : s ⟨L.eq, args⟩ ↔ ⟨L.eq, args⟩ ∈ L.init := by
  have hder : ¬ L.Derived ⟨L.eq, args⟩ := fun ⟨x, hx, h'⟩ => hL.eqAxiom x hx h'
  refine lifted_ind (Q := fun s => s ⟨L.eq, args⟩ ↔ ⟨L.eq, args⟩ ∈ L.init) (fun s hs => hs.base _ hder) (fun s A σ s' _ ih hs => ?_) h
  rw [hs.2.2.2.2.base _ hder, ← ih]
  have hno : ∀ b, ¬ L.Changes b A σ s ⟨L.eq, args⟩ := fun b ⟨e, he, τ, _, _, h', _⟩ => hL.eqEffect A hs.1 e he (congrArg GAtom.pred h')
  simp [LTask.result, hno]

variable [DecidableEq P] [DecidableEq V] [DecidableEq O]

theorem unbalanced_false {inv : List (IPart P)} {pre : List (Lit P V O)} {A : LAction P V O T F} : ∀ {es : List (LEffect P V O T)}, unbalanced inv pre A es = some false →
    ∀ e ∈ es, effectUnbalanced inv pre A e (A.effects.filter (fun d => relevant inv d && d.negated)) = some false
  | [], _, e, he => by cases he
  | e' :: es, h, e, he => by
    rw [unbalanced] at h
    split at h
    · cases h
    · cases h
    · next h' =>
      rcases List.mem_cons.mp he with rfl | he
      · exact h'
      · exact unbalanced_false h e he

theorem checkBalance_true {eq : P} {inv : List (IPart P)} : ∀ {acts : List (LAction P V O T F × Option (List (List O)))}, checkBalance eq inv acts = some true →
    ∀ x ∈ acts, x.1.effects.any (fun e => relevant inv e && !e.negated) = true → actionBalanced eq inv x.1 x.2 = some true
  | [], _, x, hx, _ => by cases hx
  | (A, reach) :: rest, h, x, hx, hr => by
    rw [checkBalance] at h
    rcases List.mem_cons.mp hx with rfl | hx
    · rw [if_pos hr] at h
      split at h
      · cases h
      · cases h
      · next h' => exact h'
    · split at h
      · split at h
        · cases h
        · cases h
        · exact checkBalance_true h x hx hr
      · exact checkBalance_true h x hx hr

section
variable {L : LTask P V O T F} {ar : P → Nat} {fnAr : F → Nat} {inv : List (IPart P)} {n : Nat} {θ : Nat → O} {acts : List (LAction P V O T F × Option (List (List O)))}

omit [DecidableEq P] [DecidableEq V] [DecidableEq O] in
theorem covered_basic (hB : L.BasicParts inv) {p : GAtom P O} (h : Covered inv θ p) : ¬ L.Derived p := by
  rintro ⟨x, hx, hp⟩
  obtain ⟨part, h1, h2, _⟩ := h
  exact hB part h1 x hx (hp.trans h2.symm)

theorem balanced_step (hL : L.Ok ar fnAr) (hO : L.ConditionObjects) (hU : L.UntypedDeletes) (hP : L.PossibleDeletes) (hwf : WellFormed ar n inv) (hB : L.BasicParts inv) (hacts : ∀ A ∈ L.actions, A ∈ acts.map (·.1)) (hR : L.ReachLists acts)
    (hN : L.NoReadding inv θ) (hc : checkBalance L.eq inv acts = some true) {s s' : GAtom P O → Prop} {A : LAction P V O T F} {σ : V → O} (hr : L.Reachable s) (h : AtMostOne inv θ s) (hs : L.Step s A σ s') : AtMostOne inv θ s' := by
  have hsit : Situation L ar fnAr A σ s := {
    ok := hL, objects := hO, mem := hs.1, typed := hs.2.1, pre := hs.2.2.2.1
    eqs := fun a b hab => by
      obtain ⟨o, ho⟩ := hL.eqOnly _ ((eq_static hL hr _).mp hab) rfl
      simp only [List.cons.injEq, and_true] at ho
      rw [ho.1, ho.2]
    refl := fun o ⟨t, ht⟩ => (eq_static hL hr _).mpr (hL.eqSame _ ht) }
  have happ : L.Applicable s A σ := ⟨hs.1, hs.2.1, hs.2.2.1, hs.2.2.2.1⟩
  obtain ⟨⟨B, reach⟩, hx, hB'⟩ := List.mem_map.mp (hacts A hs.1)
  have hBA : B = A := hB'
  subst hBA
  have hreach : ∀ r, reach = some r → B.params.map (fun p => σ p.1) ∈ r := fun r hr' => hR B r (hr' ▸ hx) s hr σ happ
  have hbal : ∀ {p}, Covered inv θ p → L.Changes false B σ s p → actionBalanced L.eq inv B reach = some true := by
    rintro p hp ⟨e, he, τ, _, hn, rfl, _⟩
    exact checkBalance_true hc _ hx (List.any_eq_true.mpr ⟨e, he, by simp [relevant_of_covered hp, hn]⟩)
  have hheavy : ∀ {p}, Covered inv θ p → L.Changes false B σ s p → tooHeavy L.eq inv (preLits L.eq B reach) B = false ∧
      unbalanced inv (preLits L.eq B reach) B (B.effects.filter (fun e => relevant inv e && !e.negated)) = some false := by
    intro p hp hch
    have h1 := hbal hp hch
    unfold actionBalanced at h1
    split at h1
    · cases h1
    · next h2 =>
      obtain ⟨b, h3, h4⟩ := Option.map_eq_some_iff.mp h1
      rw [Bool.not_eq_true'] at h4
      exact ⟨by simpa using h2, h4 ▸ h3⟩
  have hdel : ∀ {p}, Covered inv θ p → ¬ s p → L.Changes false B σ s p → ∃ q, Covered inv θ q ∧ s q ∧ L.Changes true B σ s q := by
    intro p hp hsp hch
    have hu := (hheavy hp hch).2
    obtain ⟨e, he, τ, hx', hn, rfl, hcond⟩ := hch
    have h1 := unbalanced_false hu e (List.mem_filter.mpr ⟨he, by simp [relevant_of_covered hp, hn]⟩)
    unfold effectUnbalanced at h1
    split at h1
    · cases h1
    · next ac hac =>
      split at h1
      · rw [Option.some.injEq, Bool.not_eq_false', List.any_eq_true] at h1
        obtain ⟨d, hd, hb⟩ := h1
        obtain ⟨hd1, hd2⟩ := List.mem_filter.mp hd
        rw [Bool.and_eq_true] at hd2
        exact balance_deletes hsit hreach hwf hU hP he hd1 hd2.2 hx' hcond hp hsp hac hb
      · cases h1
  have hone : ∀ {p q}, Covered inv θ p → Covered inv θ q → s' p → s' q → ¬ s p → s q → False := by
    intro p q hp hq hsp hsq hnp hsq'
    rw [hs.2.2.2.2.base _ (covered_basic hB hp)] at hsp
    rw [hs.2.2.2.2.base _ (covered_basic hB hq)] at hsq
    have hadd : L.Changes false B σ s p := hsp.resolve_right fun h' => hnp h'.1
    obtain ⟨q', h1, h2, h3⟩ := hdel hp hnp hadd
    obtain rfl := h q q' hq h1 hsq' h2
    rcases hsq with h4 | h4
    · exact hN s hr B σ happ p q hp hq hsq' h3 h4 hnp hadd
    · exact h4.2 h3
  intro p q hp hq hsp hsq
  by_cases h1 : s p <;> by_cases h2 : s q
  · exact h p q hp hq h1 h2
  · exact (hone hq hp hsq hsp h2 h1).elim
  · exact (hone hp hq hsp hsq h1 h2).elim
  · rw [hs.2.2.2.2.base _ (covered_basic hB hp)] at hsp
    rw [hs.2.2.2.2.base _ (covered_basic hB hq)] at hsq
    have ap := hsp.resolve_right fun h' => h1 h'.1
    have aq := hsq.resolve_right fun h' => h2 h'.1
    exact not_heavy hsit hreach hwf.preds (hheavy hp ap).1 hp hq h1 h2 ap aq

theorem balanced_reachable (hL : L.Ok ar fnAr) (hO : L.ConditionObjects) (hU : L.UntypedDeletes) (hP : L.PossibleDeletes) (hwf : WellFormed ar n inv) (hB : L.BasicParts inv) (hacts : ∀ A ∈ L.actions, A ∈ acts.map (·.1)) (hR : L.ReachLists acts)
    (hN : L.NoReadding inv θ) (hc : checkBalance L.eq inv acts = some true) (h0 : AtMostOne inv θ (· ∈ L.init)) {s : GAtom P O → Prop} (hr : L.Reachable s) : AtMostOne inv θ s :=
  lifted_ind (fun s hs p q hp hq hsp hsq => h0 p q hp hq ((hs.base p (covered_basic hB hp)).mp hsp) ((hs.base q (covered_basic hB hq)).mp hsq))
    (fun _ _ _ _ hr h hs => balanced_step hL hO hU hP hwf hB hacts hR hN hc hr h hs) hr
end

omit [DecidableEq P] [DecidableEq V] [DecidableEq O] in
theorem find_zip {β : Type} : ∀ {l : List (Option Nat)} {m : List β} {k : Nat} {t : β}, (l.filterMap id).Nodup → (some k, t) ∈ l.zip m → (l.zip m).find? (fun x => x.1 = some k) = some (some k, t)
  | a :: l, b :: m, k, t, hn, h => by
    rw [List.zip_cons_cons] at h ⊢
    rcases List.mem_cons.mp h with h | h
    · injection h with h1 h2
      subst h1 h2
      simp
    · have hk : k ∈ l.filterMap id := by simpa using (List.of_mem_zip h).1
      have ha : a ≠ some k := by
        rintro rfl
        simp only [List.filterMap_cons, id_eq, List.nodup_cons] at hn
        exact hn.1 hk
      rw [List.find?_cons_of_neg (by simpa using ha)]
      refine find_zip ?_ h
      cases a with
      | none => simpa using hn
      | some j =>
        simp only [List.filterMap_cons, id_eq, List.nodup_cons] at hn
        exact hn.2

omit [DecidableEq P] [DecidableEq V] [DecidableEq O] in
theorem exists_zip {β : Type} {l : List (Option Nat)} {m : List β} {k : Nat} (hl : l.length = m.length) (hk : some k ∈ l) : ∃ t, (some k, t) ∈ l.zip m := by
  obtain ⟨i, hi, hg⟩ := List.getElem_of_mem hk
  exact ⟨m[i], List.mem_iff_getElem.mpr ⟨i, by simp only [List.length_zip]; omega, by rw [List.getElem_zip, hg]⟩⟩

section
variable {ar : P → Nat} {n : Nat} {inv : List (IPart P)} {θ : Nat → O}

omit [DecidableEq P] in
theorem part_param (hwf : WellFormed ar n inv) {part : IPart P} (hp : part ∈ inv) {k : Nat} : some k ∈ part.args ↔ k < n := by
  rw [← List.mem_range, ← (hwf.args part hp).mem_iff]
  simp

/-- the check is defined -/
theorem cover_consistent (hwf : WellFormed ar n inv) {l : Lit P V O} {c : List (Tm V O × Tm V O)} (hl : ∀ t ∈ l.args, ∀ k, t ≠ .inv k) (h : cover inv l = some c) : consistent c = true := by
  obtain ⟨part, hp, _, rfl⟩ := cover_some h
  have hnd : (part.args.filterMap id).Nodup := (hwf.args part hp).nodup_iff.mpr List.nodup_range
  let ν : Tm V O → Tm V O := fun t => match t with
    | .inv k => (((part.args.zip l.args).find? (fun x => x.1 = some k)).map (·.2)).getD (.inv k)
    | t => t
  refine consistent_iff.mpr fun o o' _ _ hcl => ?_
  have hν : ∀ e ∈ (part.args.zip l.args).filterMap (fun x => x.1.map (fun k => ((Tm.inv k : Tm V O), x.2))), ν e.1 = ν e.2 := by
    intro e he
    obtain ⟨k, hk, hk'⟩ := mem_cover.mp he
    have h1 : ν e.1 = e.2 := by simp only [hk', ν, find_zip hnd hk, Option.map_some, Option.getD_some]
    have h2 : ν e.2 = e.2 := by
      cases h3 : e.2 with
      | inv j => exact absurd h3 (hl _ (List.of_mem_zip hk).2 j)
      | _ => rfl
    rw [h1, h2]
  have h1 := classes_sound hν (.obj o)
  rw [hcl, classes_sound hν (.obj o')] at h1
  exact (Tm.obj.inj h1).symm

theorem effLit_not_inv {e : LEffect P V O T} {b m : Bool} : ∀ t ∈ (effLit b e m : Lit P V O).args, ∀ k, t ≠ .inv k := by
  intro t ht k hk
  subst hk
  obtain ⟨x, _, hx⟩ := List.mem_map.mp ht
  cases x with
  | const o => cases hx
  | var v =>
    simp only [effTm] at hx
    split at hx <;> cases hx

theorem unbalanced_defined (hwf : WellFormed ar n inv) {pre : List (Lit P V O)} {A : LAction P V O T F} : ∀ {es : List (LEffect P V O T)}, (∀ e ∈ es, relevant inv e = true) → ∃ b, unbalanced inv pre A es = some b
  | [], _ => ⟨_, rfl⟩
  | e :: es, h => by
    obtain ⟨c, hc⟩ := cover_of_relevant (inv := inv) (l := (effLit false e false : Lit P V O)) (by simpa [relevant, effLit, List.contains_eq_mem] using h e List.mem_cons_self)
    have h1 := cover_consistent hwf effLit_not_inv hc
    rw [unbalanced, effectUnbalanced, hc]
    simp only [h1, if_true]
    obtain ⟨b, hb⟩ := unbalanced_defined hwf (pre := pre) (A := A) (es := es) fun e he => h e (List.mem_cons_of_mem _ he)
    cases (A.effects.filter (fun d => relevant inv d && d.negated)).any (balances inv (pre ++ condLits false e ++ [effLit false e true]) A e c) with
    | true => exact ⟨b, hb⟩
    | false => exact ⟨_, rfl⟩

theorem checkBalance_defined (hwf : WellFormed ar n inv) {eq : P} : ∀ (acts : List (LAction P V O T F × Option (List (List O)))), ∃ b, checkBalance eq inv acts = some b
  | [] => ⟨_, rfl⟩
  | (A, reach) :: rest => by
    rw [checkBalance]
    split
    · have hd : ∃ b, actionBalanced eq inv A reach = some b := by
        unfold actionBalanced
        split
        · exact ⟨_, rfl⟩
        · obtain ⟨b, hb⟩ := unbalanced_defined hwf (pre := preLits eq A reach) (A := A) (es := A.effects.filter (fun e => relevant inv e && !e.negated)) fun e he => by
            have := (List.mem_filter.mp he).2
            rw [Bool.and_eq_true] at this
            exact this.1
          exact ⟨_, by rw [hb]; rfl⟩
      obtain ⟨b, hb⟩ := hd
      rw [hb]
      cases b
      · exact ⟨_, rfl⟩
      · exact checkBalance_defined hwf rest
    · exact checkBalance_defined hwf rest

omit [DecidableEq P] [DecidableEq V] [DecidableEq O] in
theorem parameters_defined (hwf : WellFormed ar n inv) {part : IPart P} (hp : part ∈ inv) {a : GAtom P O} (hl : part.args.length = a.args.length) : ∃ os, parameters n part a = some os := by
  refine Mas.mapAll_defined fun k hk => ?_
  obtain ⟨t, ht⟩ := exists_zip hl ((part_param hwf hp).mpr (List.mem_range.mp hk))
  exact ⟨t, by rw [find_zip ((hwf.args part hp).nodup_iff.mpr List.nodup_range) ht]; rfl⟩

omit [DecidableEq P] [DecidableEq V] [DecidableEq O] in
theorem parameters_of_covers (hwf : WellFormed ar n inv) {part : IPart P} (hp : part ∈ inv) {a : GAtom P O} (hc : part.Covers θ a) : parameters n part a = some ((List.range n).map θ) := by
  have h2 := List.forall₂_iff_zip.mp hc.2
  refine Mas.mapAll_iff.mpr (List.forall₂_map_right_iff.mpr (List.forall₂_same.mpr fun k hk => ?_))
  obtain ⟨t, ht⟩ := exists_zip h2.1 ((part_param hwf hp).mpr (List.mem_range.mp hk))
  rw [find_zip ((hwf.args part hp).nodup_iff.mpr List.nodup_range) ht, h2.2 ht k rfl]
  rfl

omit [DecidableEq P] [DecidableEq V] [DecidableEq O] in
theorem parameters_spec (hwf : WellFormed ar n inv) {part : IPart P} (hp : part ∈ inv) {a : GAtom P O} {os : List O} (hpa : part.pred = a.pred) (hl : part.args.length = a.args.length) (h : parameters n part a = some os) (hθ : ∀ k o, os[k]? = some o → θ k = o) :
    part.Covers θ a := by
  refine ⟨hpa, List.forall₂_iff_zip.mpr ⟨hl, fun {x t} hx k hk => ?_⟩⟩
  subst hk
  have hkn : k < n := (part_param hwf hp).mp (List.of_mem_zip hx).1
  obtain ⟨o, h1, h2⟩ := Mas.mapAll_getElem? h (i := k) (a := k) (by simp [hkn])
  rw [find_zip ((hwf.args part hp).nodup_iff.mpr List.nodup_range) hx] at h2
  rw [hθ k o h1]
  exact (Option.some.inj h2).symm

omit [DecidableEq P] [DecidableEq V] [DecidableEq O] in
theorem instantiate_defined (hwf : WellFormed ar n inv) {os : List O} (ho : os.length = n) {part : IPart P} (hp : part ∈ inv) : ∃ x, instantiatePart os part = some x := by
  obtain ⟨l, hl⟩ := Mas.mapAll_defined (f := fun a : Option Nat => match a with | none => some none | some k => os[k]?.map some) (l := part.args) fun a ha => by
    cases a with
    | none => exact ⟨_, rfl⟩
    | some k =>
      have : k < os.length := ho ▸ (part_param hwf hp).mp ha
      exact ⟨some os[k], by simp [List.getElem?_eq_getElem this]⟩
  exact ⟨(part.pred, l), congrArg (Option.map (part.pred, ·)) hl⟩

omit [DecidableEq P] [DecidableEq V] [DecidableEq O] in
theorem forall₂_comp_iff {os : List O} : ∀ {as : List (Option Nat)} {xs : List (Option O)} {ps : List O}, (∀ k o, os[k]? = some o → θ k = o) → List.Forall₂ (fun (a : Option Nat) b => (match a with | none => some none | some k => os[k]?.map some) = some b) as xs →
    (List.Forall₂ (fun a o => ∀ b, a = some b → b = o) xs ps ↔ List.Forall₂ (fun a o => ∀ k, a = some k → θ k = o) as ps)
  | _, _, ps, _, .nil => by cases ps <;> simp
  | _, _, ps, hθ, .cons (a := a) (b := x) h1 h2 => by
    cases ps with
    | nil => simp
    | cons p ps =>
      rw [List.forall₂_cons, List.forall₂_cons, forall₂_comp_iff hθ h2]
      refine and_congr ?_ Iff.rfl
      cases a with
      | none =>
        simp only [Option.some.injEq] at h1
        subst h1
        simp
      | some k =>
        obtain ⟨o, h3, h4⟩ := Option.map_eq_some_iff.mp h1
        subst h4
        simp [hθ k o h3]

omit [DecidableEq P] [DecidableEq V] [DecidableEq O] in
theorem group_covers {os : List O} (hθ : ∀ k o, os[k]? = some o → θ k = o) {g : List (P × List (Option O))} (h : Mas.mapAll (instantiatePart os) inv = some g) {p : GAtom P O} : GroupCovers g p ↔ Covered inv θ p := by
  constructor
  · rintro ⟨x, hx, h1, h2⟩
    obtain ⟨part, hp, hi⟩ := Mas.mapAll_mem h hx
    obtain ⟨xs, h3, rfl⟩ := Option.map_eq_some_iff.mp hi
    exact ⟨part, hp, h1, (forall₂_comp_iff hθ (Mas.mapAll_iff.mp h3)).mp h2⟩
  · rintro ⟨part, hp, h1, h2⟩
    obtain ⟨x, hx, hi⟩ := Mas.mapAll_mem' h hp
    obtain ⟨xs, h3, rfl⟩ := Option.map_eq_some_iff.mp hi
    exact ⟨_, hx, h1, (forall₂_comp_iff hθ (Mas.mapAll_iff.mp h3)).mpr h2⟩

omit [DecidableEq V] [DecidableEq O] in
theorem arity_eq (hwf : WellFormed ar n inv) (hne : inv ≠ []) : arity inv = n := by
  cases inv with
  | nil => exact absurd rfl hne
  | cons part rest => simpa [arity, partArity] using (hwf.args part List.mem_cons_self).length_eq

omit [DecidableEq V] [DecidableEq O] in
theorem find_part {part : IPart P} (hn : (inv.map (·.pred)).Nodup) (hp : part ∈ inv) {q : P} (hq : part.pred = q) : inv.find? (fun part => part.pred = q) = some part := by
  cases hf : inv.find? (fun part => part.pred = q) with
  | none => exact absurd (List.find?_eq_none.mp hf part hp) (by simp [hq])
  | some part' =>
    have h1 := List.find?_some hf
    rw [decide_eq_true_eq] at h1
    rw [part_unique hn (List.mem_of_find?_eq_some hf) hp (h1.trans hq.symm)]
end

omit [DecidableEq V] in
/-- the groups: one for each invariant and values of its parameters, with one initial atom -/
theorem usefulGroups_spec {ar : P → Nat} {invs : List (List (IPart P))} (hwf : ∀ inv ∈ invs, ∃ n, WellFormed ar n inv) {init : List (GAtom P O)} (hi : ∀ a ∈ init, a.args.length = ar a.pred) {groups : List (List (P × List (Option O)))}
    (h : usefulGroups invs init = some groups) {g : List (P × List (Option O))} (hg : g ∈ groups) : ∃ inv ∈ invs, ∃ os, Mas.mapAll (instantiatePart os) inv = some g ∧
    ∀ θ : Nat → O, (∀ k o, os[k]? = some o → θ k = o) → (∃ p ∈ init, Covered inv θ p) ∧ AtMostOne inv θ (· ∈ init) := by
  obtain ⟨keys, hk, h⟩ := Option.bind_eq_some_iff.mp h
  obtain ⟨⟨inv, os⟩, hkey, hmap⟩ := Mas.mapAll_mem h hg
  obtain ⟨hkey, hcount⟩ := List.mem_filter.mp hkey
  rw [decide_eq_true_eq] at hcount
  obtain ⟨⟨inv', a⟩, hx, hf⟩ := Mas.mapAll_mem hk hkey
  obtain ⟨part, hpart, hf⟩ := Option.bind_eq_some_iff.mp hf
  obtain ⟨os', hos, hf⟩ := Option.map_eq_some_iff.mp hf
  injection hf with hf1 hf2
  have hf1' : inv' = inv := hf1
  subst hf1' hf2
  obtain ⟨a', ha, hx⟩ := List.mem_flatMap.mp hx
  obtain ⟨inv'', hinv, hx⟩ := List.mem_map.mp hx
  injection hx with hx1 hx2
  subst hx1 hx2
  have hinv := (List.mem_filter.mp hinv).1
  obtain ⟨n, hw⟩ := hwf _ hinv
  have hpm := List.mem_of_find?_eq_some hpart
  have hpp : part.pred = a'.pred := by simpa using List.find?_some hpart
  have har := arity_eq hw (List.ne_nil_of_mem hpm)
  rw [har] at hos
  refine ⟨_, hinv, os', hmap, fun θ hθ => ⟨⟨a', ha, part, hpm, parameters_spec hw hpm hpp (by rw [hw.length part hpm, hi a' ha, hpp]) hos hθ⟩, ?_⟩⟩
  have hlen : os'.length = n := by simpa using Mas.mapAll_length hos
  have hosθ : (List.range n).map θ = os' := by
    refine List.ext_getElem? fun k => ?_
    by_cases hkn : k < n
    · have : k < os'.length := hlen ▸ hkn
      rw [List.getElem?_map, List.getElem?_range hkn, List.getElem?_eq_getElem this, Option.map_some, hθ k _ (List.getElem?_eq_getElem this)]
    · rw [List.getElem?_eq_none (by simpa using hkn), List.getElem?_eq_none (by omega)]
  have hin : ∀ p ∈ init, Covered inv'' θ p → ∃ i : Nat, (init.flatMap (fun a => (invs.filter (fun inv => (inv.map (·.pred)).contains a.pred)).map (·, a)))[i]? = some (inv'', p) ∧ keys[i]? = some (inv'', os') := by
    intro p hp hc
    obtain ⟨part', hp1, hp2⟩ := hc
    have hm : (inv'', p) ∈ init.flatMap (fun a => (invs.filter (fun inv => (inv.map (·.pred)).contains a.pred)).map (·, a)) := by
      refine List.mem_flatMap.mpr ⟨p, hp, List.mem_map.mpr ⟨inv'', List.mem_filter.mpr ⟨hinv, ?_⟩, rfl⟩⟩
      simp only [List.contains_eq_mem, decide_eq_true_eq]
      exact List.mem_map.mpr ⟨part', hp1, hp2.1⟩
    obtain ⟨i, hi'⟩ := List.mem_iff_getElem?.mp hm
    obtain ⟨key, h1, h2⟩ := Mas.mapAll_getElem? hk hi'
    refine ⟨i, hi', ?_⟩
    simp only [find_part hw.preds hp1 hp2.1, Option.bind_some, har, parameters_of_covers hw hp1 hp2, Option.map_some, Option.some.injEq, hosθ] at h2
    rw [h1, ← h2]
  intro p q hp hq hsp hsq
  obtain ⟨i, hi1, hi2⟩ := hin p hsp hp
  obtain ⟨j, hj1, hj2⟩ := hin q hsq hq
  have hij : i = j := by
    by_contra hne
    have hdup : List.Duplicate (inv'', os') keys := by
      rw [List.duplicate_iff_exists_distinct_get]
      obtain ⟨hi3, hi4⟩ := List.getElem?_eq_some_iff.mp hi2
      obtain ⟨hj3, hj4⟩ := List.getElem?_eq_some_iff.mp hj2
      rcases Nat.lt_or_gt_of_ne hne with hlt | hlt
      · exact ⟨⟨i, hi3⟩, ⟨j, hj3⟩, hlt, hi4.symm, hj4.symm⟩
      · exact ⟨⟨j, hj3⟩, ⟨i, hi3⟩, hlt, hj4.symm, hi4.symm⟩
    have h2 := (List.duplicate_iff_sublist.mp hdup).count_le (inv'', os')
    simp only [List.count_cons_self, List.count_nil] at h2
    omega
  subst hij
  rw [hi1] at hj1
  exact (Prod.mk.inj (Option.some.inj hj1)).2

omit [DecidableEq V] in
theorem usefulGroups_defined {ar : P → Nat} {invs : List (List (IPart P))} (hwf : ∀ inv ∈ invs, ∃ n, WellFormed ar n inv) {init : List (GAtom P O)} (hi : ∀ a ∈ init, a.args.length = ar a.pred) : ∃ groups, usefulGroups invs init = some groups := by
  have h1 : ∀ x ∈ init.flatMap (fun a => (invs.filter (fun inv => (inv.map (·.pred)).contains a.pred)).map (·, a)), ∃ n os part, part ∈ x.1 ∧ WellFormed ar n x.1 ∧ x.1.find? (fun part => part.pred = x.2.pred) = some part ∧ arity x.1 = n ∧ parameters n part x.2 = some os := by
    intro x hx
    obtain ⟨a, ha, hx⟩ := List.mem_flatMap.mp hx
    obtain ⟨inv, hinv, rfl⟩ := List.mem_map.mp hx
    obtain ⟨hinv, hc⟩ := List.mem_filter.mp hinv
    simp only [List.contains_eq_mem, decide_eq_true_eq] at hc
    obtain ⟨part, hp, hpp⟩ := List.mem_map.mp hc
    obtain ⟨n, hw⟩ := hwf inv hinv
    obtain ⟨os, hos⟩ := parameters_defined hw hp (a := a) (by rw [hw.length part hp, hi a ha, hpp])
    exact ⟨n, os, part, hp, hw, find_part hw.preds hp hpp, arity_eq hw (List.ne_nil_of_mem hp), hos⟩
  obtain ⟨keys, hk⟩ := Mas.mapAll_defined (f := fun x : List (IPart P) × GAtom P O => (x.1.find? (fun part => part.pred = x.2.pred)).bind (fun part => (parameters (arity x.1) part x.2).map (x.1, ·))) fun x hx => by
    obtain ⟨n, os, part, _, _, h2, h3, h4⟩ := h1 x hx
    exact ⟨(x.1, os), by simp [h2, h3, h4]⟩
  obtain ⟨groups, hg⟩ := Mas.mapAll_defined (f := fun key : List (IPart P) × List O => Mas.mapAll (instantiatePart key.2) key.1) (l := keys.filter (fun key => keys.count key = 1)) fun key hkey => by
    obtain ⟨x, hx, hf⟩ := Mas.mapAll_mem hk (List.mem_filter.mp hkey).1
    obtain ⟨n, os, part, _, h2, h3, h4, h5⟩ := h1 x hx
    simp only [h3, h4, h5, Option.bind_some, Option.map_some, Option.some.injEq] at hf
    subst hf
    exact Mas.mapAll_defined fun part hp => instantiate_defined h2 (by simpa using Mas.mapAll_length h5) hp
  exact ⟨groups, by rw [usefulGroups, groupKeys, hk]; exact hg⟩

end Verif.Invariants
