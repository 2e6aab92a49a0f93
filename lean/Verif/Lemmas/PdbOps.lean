import Verif.Lemmas.PdbProj
import Verif.Lemmas.PdbTree

/-
The abstract operators.
-/
namespace Verif.Pdb

/-- one value after the other is set -/
def sets (xs : List Nat) : List (Nat × Nat) → List Nat
  | [] => xs
  | (v, x) :: l => sets (xs.set v x) l

theorem sets_getElem?_ne : ∀ (l : List (Nat × Nat)) (xs : List Nat) (v : Nat), v ∉ l.map (·.1) → (sets xs l)[v]? = xs[v]?
  | [], xs, v, _ => rfl
  | (w, x) :: l, xs, v, h => by
    simp only [List.map_cons, List.mem_cons, not_or] at h
    simp only [sets]
    rw [sets_getElem?_ne l _ v h.2, List.getElem?_set_ne (Ne.symm h.1)]

theorem sets_length : ∀ (l : List (Nat × Nat)) (xs : List Nat), (sets xs l).length = xs.length
  | [], xs => rfl
  | (w, x) :: l, xs => by simp [sets, sets_length l]

theorem sets_getElem?_mem : ∀ (l : List (Nat × Nat)) (xs : List Nat) (v x : Nat), (l.map (·.1)).Nodup → (v, x) ∈ l → v < xs.length → (sets xs l)[v]? = some x
  | (w, y) :: l, xs, v, x, hn, h, hv => by
    simp only [List.map_cons, List.nodup_cons] at hn
    simp only [sets]
    rcases List.mem_cons.mp h with e | e
    · simp only [Prod.mk.injEq] at e
      obtain ⟨rfl, rfl⟩ := e
      rw [sets_getElem?_ne l _ v hn.1, List.getElem?_set_self hv]
    · exact sets_getElem?_mem l _ v x hn.2 e (by simpa using hv)

theorem sets_valid {ds : List Nat} : ∀ (l : List (Nat × Nat)) (xs : List Nat), Valid ds xs → (∀ f ∈ l, ∀ d, ds[f.1]? = some d → f.2 < d) → Valid ds (sets xs l)
  | [], xs, h, _ => h
  | (w, y) :: l, xs, h, hl => sets_valid l _ (h.set (hl (w, y) (by simp))) (fun f hf => hl f (by simp [hf]))

section
variable {t : Task} {P : List Nat} {p : Proj}

theorem isInt_of {x n : Int} (h1 : -n < x) (h2 : x < n) (hn : n < 2 ^ 31) : isInt x = true := by
  unfold isInt; simp only [decide_eq_true_eq]; constructor <;> omega

/-- the hash effect is the difference of the ranks -/
theorem hashEffect_spec (hp : ProjOk t P p) : ∀ (pre eff : List (Nat × Nat)) (b b0 : List Nat), Valid (P.map t.domain) b → Valid (P.map t.domain) b0 → pre.map (·.1) = eff.map (·.1) → (eff.map (·.1)).Nodup →
    (∀ f ∈ pre, f.1 < P.length) → (∀ f ∈ pre, ∀ d, (P.map t.domain)[f.1]? = some d → f.2 < d) → (∀ f ∈ eff, b[f.1]? = some f.2) →
    hashEffect p pre eff ((enc (P.map t.domain) b : Int) - enc (P.map t.domain) b0) = some ((enc (P.map t.domain) (sets b pre) : Int) - enc (P.map t.domain) b0)
  | [], [], b, b0, hb, h0, hm, hn, hr, hd, he => rfl
  | [], _ :: _, b, b0, hb, h0, hm, hn, hr, hd, he => by simp at hm
  | _ :: _, [], b, b0, hb, h0, hm, hn, hr, hd, he => by simp at hm
  | (v, x) :: pre, (w, y) :: eff, b, b0, hb, h0, hm, hn, hr, hd, he => by
    simp only [List.map_cons, List.cons.injEq] at hm
    obtain ⟨rfl, hm⟩ := hm
    have hv := hr (v, x) (by simp)
    have hby := he (v, y) (by simp)
    simp only at hv hby
    have hb' : Valid (P.map t.domain) (b.set v x) := hb.set (hd (v, x) (by simp))
    have e := enc_set (ds := P.map t.domain) (x := x) hby hb.length
    have l1 := enc_lt_n hp hb
    have l2 := enc_lt_n hp hb'
    have l3 := enc_lt_n hp h0
    have hlt := hp.lt
    unfold hashEffect
    rw [mult_eq hp hv]
    simp only
    have e1 : ((x : Int) - y) * (((P.map t.domain).take v).prod : Nat) = enc (P.map t.domain) (b.set v x) - enc (P.map t.domain) b := by omega
    rw [e1]
    have e2 : (enc (P.map t.domain) b : Int) - enc (P.map t.domain) b0 + (enc (P.map t.domain) (b.set v x) - enc (P.map t.domain) b) = enc (P.map t.domain) (b.set v x) - enc (P.map t.domain) b0 := by omega
    rw [e2, isInt_of (n := p.n) (by omega) (by omega) (by omega), isInt_of (n := p.n) (by omega) (by omega) (by omega)]
    simp only [Bool.and_self, if_true]
    simp only [List.map_cons, List.nodup_cons] at hn
    refine hashEffect_spec hp pre eff (b.set v x) b0 hb' h0 hm hn.2 (fun f hf => hr f (by simp [hf])) (fun f hf => hd f (by simp [hf])) ?_
    intro f hf
    have hne : v ≠ f.1 := by
      rintro rfl
      exact hn.1 (List.mem_map.mpr ⟨f, hf, rfl⟩)
    rw [List.getElem?_set_ne hne]
    exact he f (by simp [hf])

/-- the possible values before the operator of the variables without precondition; the resulting prev_pairs, pre_pairs and eff_pairs -/
inductive Choice (dom : Nat → Option Nat) : List (Nat × Nat) → List (Nat × Nat) → List (Nat × Nat) → List (Nat × Nat) → List (Nat × Nat) → List (Nat × Nat) → List (Nat × Nat) → Prop where
  | nil (prev pre eff) : Choice dom [] prev pre eff prev pre eff
  | ne (v x rest prev pre eff prev' pre' eff' i d) : dom v = some d → i < d → i ≠ x → Choice dom rest prev (pre ++ [(v, i)]) (eff ++ [(v, x)]) prev' pre' eff' →
      Choice dom ((v, x) :: rest) prev pre eff prev' pre' eff'
  | eq (v x rest prev pre eff prev' pre' eff' d) : dom v = some d → x < d → Choice dom rest (prev ++ [(v, x)]) pre eff prev' pre' eff' →
      Choice dom ((v, x) :: rest) prev pre eff prev' pre' eff'

theorem collect_spec {α β : Type} {f : α → Option (List β)} {Q : α → β → Prop} : ∀ (l : List α), (∀ a ∈ l, ∃ r, f a = some r ∧ ∀ b, b ∈ r ↔ Q a b) → ∃ r, collect f l = some r ∧ ∀ b, b ∈ r ↔ ∃ a ∈ l, Q a b
  | [], _ => ⟨[], rfl, by simp⟩
  | a :: l, h => by
    obtain ⟨r1, h1, h2⟩ := h a (by simp)
    obtain ⟨r2, h3, h4⟩ := collect_spec (Q := Q) l (fun b hb => h b (by simp [hb]))
    refine ⟨r1 ++ r2, by simp only [collect, h1, h3], fun b => ?_⟩
    simp [h2, h4]

theorem domOf_some {v d : Nat} (h : domOf t p v = some d) : ∃ var : Variable, (p.pattern[v]?).bind (fun var => t.vars[var]?) = some var ∧ var.domain = d := by
  unfold domOf at h
  obtain ⟨a, h1, h2⟩ := Option.map_eq_some_iff.mp h
  exact ⟨a, h1, h2⟩

theorem multiplyOut_spec {opId cost : Nat} : ∀ (rest prev pre eff : List (Nat × Nat)), (∀ f ∈ rest, ∃ d, domOf t p f.1 = some d) →
    (∀ prev' pre' eff', Choice (domOf t p) rest prev pre eff prev' pre' eff' → ∃ a, buildAbstractOperator p opId cost prev' pre' eff' = some a) →
    ∃ r, multiplyOut t p opId cost rest prev pre eff = some r ∧ ∀ a, a ∈ r ↔ ∃ prev' pre' eff', Choice (domOf t p) rest prev pre eff prev' pre' eff' ∧ eff' ≠ [] ∧ buildAbstractOperator p opId cost prev' pre' eff' = some a
  | [], prev, pre, eff, _, hb => by
    obtain ⟨a, ha⟩ := hb _ _ _ (.nil prev pre eff)
    unfold multiplyOut
    by_cases he : eff = []
    · subst he
      refine ⟨[], by simp, fun b => ?_⟩
      simp only [List.not_mem_nil, false_iff]
      rintro ⟨prev', pre', eff', hc, hne, _⟩
      cases hc
      exact hne rfl
    · refine ⟨[a], by rw [if_pos he, ha], fun b => ?_⟩
      simp only [List.mem_singleton]
      constructor
      · rintro rfl; exact ⟨_, _, _, .nil .., he, ha⟩
      · rintro ⟨prev', pre', eff', hc, hne, hb'⟩
        cases hc
        rw [ha] at hb'
        simpa using hb'.symm
  | (v, x) :: rest, prev, pre, eff, hr, hb => by
    obtain ⟨d, hd⟩ := hr (v, x) (by simp)
    obtain ⟨var, hvar, rfl⟩ := domOf_some hd
    unfold multiplyOut
    simp only at hvar hd
    rw [hvar]
    simp only
    obtain ⟨r, h1, h2⟩ := collect_spec (f := fun i => if i ≠ x then multiplyOut t p opId cost rest prev (pre ++ [(v, i)]) (eff ++ [(v, x)]) else multiplyOut t p opId cost rest (prev ++ [(v, i)]) pre eff)
      (Q := fun i a => ∃ prev' pre' eff', (if i ≠ x then Choice (domOf t p) rest prev (pre ++ [(v, i)]) (eff ++ [(v, x)]) prev' pre' eff' else Choice (domOf t p) rest (prev ++ [(v, i)]) pre eff prev' pre' eff') ∧ eff' ≠ [] ∧ buildAbstractOperator p opId cost prev' pre' eff' = some a)
      (List.range var.domain) (by
        intro i hi
        simp only [List.mem_range] at hi
        by_cases e : i = x
        · subst e
          simp only [ne_eq, not_true_eq_false, if_false]
          exact multiplyOut_spec rest (prev ++ [(v, i)]) pre eff (fun f hf => hr f (by simp [hf])) (fun prev' pre' eff' hc => hb _ _ _ (.eq v i rest prev pre eff _ _ _ _ hd hi hc))
        · simp only [ne_eq, e, not_false_eq_true, if_true]
          exact multiplyOut_spec rest prev (pre ++ [(v, i)]) (eff ++ [(v, x)]) (fun f hf => hr f (by simp [hf])) (fun prev' pre' eff' hc => hb _ _ _ (.ne v x rest prev pre eff _ _ _ i _ hd hi e hc)))
    refine ⟨r, h1, fun a => ?_⟩
    rw [h2]
    constructor
    · rintro ⟨i, hi, prev', pre', eff', hc, h3, h4⟩
      simp only [List.mem_range] at hi
      refine ⟨prev', pre', eff', ?_, h3, h4⟩
      by_cases e : i = x
      · subst e
        simp only [ne_eq, not_true_eq_false, if_false] at hc
        exact .eq v i rest prev pre eff _ _ _ _ hd hi hc
      · simp only [ne_eq, e, not_false_eq_true, if_true] at hc
        exact .ne v x rest prev pre eff _ _ _ i _ hd hi e hc
    · rintro ⟨prev', pre', eff', hc, h3, h4⟩
      cases hc with
      | ne _ _ _ _ _ _ _ _ _ i d' hd' hi e hc =>
        rw [hd] at hd'
        simp only [Option.some.injEq] at hd'
        subst hd'
        exact ⟨i, by simpa using hi, prev', pre', eff', by rw [if_pos e]; exact hc, h3, h4⟩
      | eq _ _ _ _ _ _ _ _ _ d' hd' hi hc =>
        rw [hd] at hd'
        simp only [Option.some.injEq] at hd'
        subst hd'
        exact ⟨x, by simpa using hi, prev', pre', eff', by simpa using hc, h3, h4⟩

/-- what is known about a choice -/
structure ChoiceOk (dom : Nat → Option Nat) (rest prev pre eff prev' pre' eff' : List (Nat × Nat)) : Prop where
  aligned : pre.map (·.1) = eff.map (·.1) → pre'.map (·.1) = eff'.map (·.1)
  perm : ((prev' ++ eff').map (·.1)).Perm ((prev ++ eff ++ rest).map (·.1))
  prevSub : ∀ f ∈ prev, f ∈ prev'
  effSub : ∀ f ∈ eff, f ∈ eff'
  preSub : ∀ f ∈ pre, f ∈ pre'
  restSub : ∀ f ∈ rest, f ∈ prev' ∨ f ∈ eff'
  prevMem : ∀ f ∈ prev', f ∈ prev ∨ f ∈ rest
  effMem : ∀ f ∈ eff', f ∈ eff ∨ f ∈ rest
  preMem : ∀ f ∈ pre', f ∈ pre ∨ ((∃ x, (f.1, x) ∈ rest ∧ (f.1, x) ∈ eff') ∧ ∃ d, dom f.1 = some d ∧ f.2 < d)

theorem Choice.ok {dom : Nat → Option Nat} {rest prev pre eff prev' pre' eff' : List (Nat × Nat)} (h : Choice dom rest prev pre eff prev' pre' eff') : ChoiceOk dom rest prev pre eff prev' pre' eff' := by
  induction h with
  | nil prev pre eff => exact ⟨id, by simp, fun _ h => h, fun _ h => h, fun _ h => h, by simp, fun _ h => Or.inl h, fun _ h => Or.inl h, fun _ h => Or.inl h⟩
  | ne v x rest prev pre eff prev' pre' eff' i d hd hi hne _ ih =>
    refine ⟨fun e => ih.aligned (by simp [e]), ?_, ih.prevSub, fun f hf => ih.effSub f (by simp [hf]), fun f hf => ih.preSub f (by simp [hf]), ?_, ?_, ?_, ?_⟩
    · refine ih.perm.trans ?_
      simp [List.map_append]
    · intro f hf
      rcases List.mem_cons.mp hf with e | e
      · subst e; exact Or.inr (ih.effSub _ (by simp))
      · exact ih.restSub f e
    · intro f hf
      rcases ih.prevMem f hf with a | a
      · exact Or.inl a
      · exact Or.inr (by simp [a])
    · intro f hf
      rcases ih.effMem f hf with a | a
      · simp only [List.mem_append, List.mem_singleton] at a
        rcases a with a | a
        · exact Or.inl a
        · subst a; exact Or.inr (by simp)
      · exact Or.inr (by simp [a])
    · intro f hf
      rcases ih.preMem f hf with a | ⟨⟨y, a1, a2⟩, a3⟩
      · simp only [List.mem_append, List.mem_singleton] at a
        rcases a with a | a
        · exact Or.inl a
        · subst a
          exact Or.inr ⟨⟨x, by simp, ih.effSub _ (by simp)⟩, d, hd, hi⟩
      · exact Or.inr ⟨⟨y, by simp [a1], a2⟩, a3⟩
  | eq v x rest prev pre eff prev' pre' eff' d hd hx _ ih =>
    refine ⟨ih.aligned, ?_, fun f hf => ih.prevSub f (by simp [hf]), ih.effSub, ih.preSub, ?_, ?_, ?_, ?_⟩
    · refine ih.perm.trans ?_
      simp only [List.map_append, List.map_cons, List.map_nil, List.append_assoc]
      refine List.Perm.append_left _ ?_
      simp only [List.cons_append, List.nil_append]
      exact List.perm_middle.symm
    · intro f hf
      rcases List.mem_cons.mp hf with e | e
      · subst e; exact Or.inl (ih.prevSub _ (by simp))
      · exact ih.restSub f e
    · intro f hf
      rcases ih.prevMem f hf with a | a
      · simp only [List.mem_append, List.mem_singleton] at a
        rcases a with a | a
        · exact Or.inl a
        · subst a; exact Or.inr (by simp)
      · exact Or.inr (by simp [a])
    · intro f hf
      rcases ih.effMem f hf with a | a
      · exact Or.inl a
      · exact Or.inr (by simp [a])
    · intro f hf
      rcases ih.preMem f hf with a | ⟨⟨y, a1, a2⟩, a3⟩
      · exact Or.inl a
      · exact Or.inr ⟨⟨y, by simp [a1], a2⟩, a3⟩

/-- the choice that fits to given values -/
theorem exists_choice {dom : Nat → Option Nat} (a : List Nat) : ∀ (rest prev pre eff : List (Nat × Nat)), (∀ f ∈ rest, ∃ d y, dom f.1 = some d ∧ a[f.1]? = some y ∧ y < d) →
    ∃ prev' pre' eff', Choice dom rest prev pre eff prev' pre' eff' ∧ (∀ f ∈ pre', f ∈ pre ∨ a[f.1]? = some f.2) ∧ (∀ f ∈ prev', f ∈ prev ∨ a[f.1]? = some f.2)
  | [], prev, pre, eff, _ => ⟨prev, pre, eff, .nil .., fun _ h => Or.inl h, fun _ h => Or.inl h⟩
  | (v, x) :: rest, prev, pre, eff, h => by
    obtain ⟨d, y, hd, hy, hyd⟩ := h (v, x) (by simp)
    simp only at hd hy
    by_cases e : y = x
    · subst e
      obtain ⟨prev', pre', eff', h1, h2, h3⟩ := exists_choice a rest (prev ++ [(v, y)]) pre eff (fun f hf => h f (by simp [hf]))
      refine ⟨prev', pre', eff', .eq v y rest prev pre eff _ _ _ d hd hyd h1, h2, fun f hf => ?_⟩
      rcases h3 f hf with b | b
      · simp only [List.mem_append, List.mem_singleton] at b
        rcases b with b | b
        · exact Or.inl b
        · subst b; exact Or.inr hy
      · exact Or.inr b
    · obtain ⟨prev', pre', eff', h1, h2, h3⟩ := exists_choice a rest prev (pre ++ [(v, y)]) (eff ++ [(v, x)]) (fun f hf => h f (by simp [hf]))
      refine ⟨prev', pre', eff', .ne v x rest prev pre eff _ _ _ y d hd hyd e h1, fun f hf => ?_, h3⟩
      rcases h2 f hf with b | b
      · simp only [List.mem_append, List.mem_singleton] at b
        rcases b with b | b
        · exact Or.inl b
        · subst b; exact Or.inr hy
      · exact Or.inr b

end
end Verif.Pdb
