import Verif.Lemmas.Cliques

/-
Dominance pruning.
-/
namespace Verif.Pdb

/-- every pattern of `c'` is part of a pattern of `c` -/
def Dom (patterns : List (List Nat)) (c c' : List Nat) : Prop := ∀ i ∈ c', ∃ j ∈ c, ∃ P Q, patterns[i]? = some P ∧ patterns[j]? = some Q ∧ ∀ v ∈ P, v ∈ Q

theorem Dom.trans {patterns : List (List Nat)} {a b c : List Nat} (h1 : Dom patterns a b) (h2 : Dom patterns b c) : Dom patterns a c := by
  intro i hi
  obtain ⟨j, hj, P, Q, k1, k2, k3⟩ := h2 i hi
  obtain ⟨k, hk, P', Q', l1, l2, l3⟩ := h1 j hj
  rw [k2] at l1
  simp only [Option.some.injEq] at l1
  subst l1
  exact ⟨k, hk, P, Q', k1, l2, fun v hv => l3 v (k3 v hv)⟩

section
variable {n : Nat} {patterns : List (List Nat)} (hP : ∀ P ∈ patterns, ∀ v ∈ P, v < n) (hne : ∀ P ∈ patterns, P ≠ [])

theorem markVars_spec {id : Nat} : ∀ (vs : List Nat) (f : Nat → Option Nat), (∀ v ∈ vs, v < n) → ∃ f', markVars n id vs f = some f' ∧ ∀ v j, f' v = some j → f v = some j ∨ (v ∈ vs ∧ j = id)
  | [], f, _ => ⟨f, rfl, fun v j h => Or.inl h⟩
  | w :: vs, f, h => by
    obtain ⟨f', h1, h2⟩ := markVars_spec vs (Relax.upd f w (some id)) (fun v hv => h v (List.mem_cons_of_mem _ hv))
    refine ⟨f', by rw [markVars, if_pos (h w (List.mem_cons_self ..)), h1], fun v j hv => ?_⟩
    rcases h2 v j hv with h3 | ⟨h3, h4⟩
    · unfold Relax.upd at h3
      split at h3
      · rename_i e
        simp only [Option.some.injEq] at h3
        exact Or.inr ⟨by rw [e]; exact List.mem_cons_self .., h3.symm⟩
      · exact Or.inl h3
    · exact Or.inr ⟨List.mem_cons_of_mem _ h3, h4⟩

include hP in
theorem markClique_spec : ∀ (c : List Nat) (f : Nat → Option Nat), (∀ i ∈ c, i < patterns.length) → ∃ f', markClique n patterns c f = some f' ∧ ∀ v j, f' v = some j → f v = some j ∨ (j ∈ c ∧ ∃ Q, patterns[j]? = some Q ∧ v ∈ Q)
  | [], f, _ => ⟨f, rfl, fun v j h => Or.inl h⟩
  | i :: c, f, h => by
    have hi := h i (List.mem_cons_self ..)
    obtain ⟨f1, a1, a2⟩ := markVars_spec (n := n) (id := i) patterns[i] f (hP _ (List.getElem_mem hi))
    obtain ⟨f', h1, h2⟩ := markClique_spec c f1 (fun k hk => h k (List.mem_cons_of_mem _ hk))
    refine ⟨f', by simp only [markClique, List.getElem?_eq_getElem hi, a1, h1], fun v j hv => ?_⟩
    rcases h2 v j hv with h3 | ⟨h3, h4⟩
    · rcases a2 v j h3 with h5 | ⟨h5, rfl⟩
      · exact Or.inl h5
      · exact Or.inr ⟨List.mem_cons_self .., _, List.getElem?_eq_getElem hi, h5⟩
    · exact Or.inr ⟨List.mem_cons_of_mem _ h3, h4⟩

theorem sameId_spec {f : Nat → Option Nat} {id : Nat} : ∀ vs : List Nat, (∀ v ∈ vs, v < n) → ∃ b, sameId n f id vs = some b ∧ (b = true → ∀ v ∈ vs, f v = some id)
  | [], _ => ⟨true, rfl, by simp⟩
  | w :: vs, h => by
    obtain ⟨b, h1, h2⟩ := sameId_spec (f := f) (id := id) vs (fun v hv => h v (List.mem_cons_of_mem _ hv))
    unfold sameId
    rw [if_pos (h w (List.mem_cons_self ..))]
    by_cases hw : f w = some id
    · refine ⟨b, by rw [if_neg (by simpa using hw), h1], fun hb v hv => ?_⟩
      rcases List.mem_cons.mp hv with rfl | hv
      · exact hw
      · exact h2 hb v hv
    · exact ⟨false, by rw [if_pos hw], by simp⟩

include hP hne in
theorem patternDominated_spec {f : Nat → Option Nat} {P : List Nat} (hPm : P ∈ patterns) : ∃ b, patternDominated n f P = some b ∧ (b = true → ∃ id, ∀ v ∈ P, f v = some id) := by
  cases P with
  | nil => exact absurd rfl (hne _ hPm)
  | cons w vs =>
    unfold patternDominated
    simp only
    rw [if_pos (hP _ hPm w (List.mem_cons_self ..))]
    cases hw : f w with
    | none => exact ⟨false, rfl, by simp⟩
    | some id =>
      obtain ⟨b, h1, h2⟩ := sameId_spec (f := f) (id := id) vs (fun v hv => hP _ hPm v (List.mem_cons_of_mem _ hv))
      refine ⟨b, h1, fun hb => ⟨id, fun v hv => ?_⟩⟩
      rcases List.mem_cons.mp hv with rfl | hv
      · exact hw
      · exact h2 hb v hv

theorem mapAll_get {α β : Type} {f : α → Option β} : ∀ (l : List α), (∀ a ∈ l, ∃ b, f a = some b) → ∃ r, mapAll f l = some r ∧ l.map f = r.map some
  | [], _ => ⟨[], rfl, rfl⟩
  | a :: l, h => by
    obtain ⟨b, hb⟩ := h a (List.mem_cons_self ..)
    obtain ⟨r, h1, h2⟩ := mapAll_get l (fun c hc => h c (List.mem_cons_of_mem _ hc))
    exact ⟨b :: r, by simp only [mapAll, hb, h1], by simp [hb, h2]⟩

include hP hne in
/-- dominated patterns are parts of patterns of the clique -/
theorem dominatedPatterns_spec {c : List Nat} (hc : ∀ i ∈ c, i < patterns.length) : ∃ dom, dominatedPatterns n patterns c = some dom ∧ dom.length = patterns.length ∧
    ∀ i : Nat, dom[i]? = some true → ∃ j ∈ c, ∃ P Q, patterns[i]? = some P ∧ patterns[j]? = some Q ∧ ∀ v ∈ P, v ∈ Q := by
  obtain ⟨f, h1, h2⟩ := markClique_spec hP c (fun _ => none) hc
  obtain ⟨dom, k1, k2⟩ := mapAll_get (f := patternDominated n f) patterns (fun P hPm => by
    obtain ⟨b, e, _⟩ := patternDominated_spec hP hne (f := f) hPm
    exact ⟨b, e⟩)
  have hlen : dom.length = patterns.length := by
    have := congrArg List.length k2
    simpa using this.symm
  refine ⟨dom, by simp only [dominatedPatterns, h1, k1], hlen, fun i hi => ?_⟩
  have hil : i < patterns.length := by rw [← hlen]; exact (List.getElem?_eq_some_iff.mp hi).1
  have e : (patterns.map (patternDominated n f))[i]? = some (some true) := by rw [k2, List.getElem?_map, hi]; rfl
  rw [List.getElem?_map, List.getElem?_eq_getElem hil] at e
  simp only [Option.map_some, Option.some.injEq] at e
  obtain ⟨b, e1, e2⟩ := patternDominated_spec hP hne (f := f) (List.getElem_mem hil)
  rw [e] at e1
  simp only [Option.some.injEq] at e1
  obtain ⟨id, hid⟩ := e2 e1.symm
  have hnonempty := hne _ (List.getElem_mem hil)
  obtain ⟨w, hw⟩ := List.exists_mem_of_ne_nil _ hnonempty
  have hall : ∀ v ∈ patterns[i], id ∈ c ∧ ∃ Q, patterns[id]? = some Q ∧ v ∈ Q := by
    intro v hv
    rcases h2 v id (hid v hv) with h3 | h3
    · simp at h3
    · exact h3
  obtain ⟨a1, Q, a2, _⟩ := hall w hw
  refine ⟨id, a1, _, Q, List.getElem?_eq_getElem hil, a2, fun v hv => ?_⟩
  obtain ⟨_, Q', b1, b2⟩ := hall v hv
  rw [a2] at b1
  simp only [Option.some.injEq] at b1
  rw [b1]; exact b2

theorem cliqueDominated_spec {dom : List Bool} : ∀ c : List Nat, (∀ i ∈ c, i < dom.length) → ∃ b, cliqueDominated dom c = some b ∧ (b = true → ∀ i ∈ c, dom[i]? = some true)
  | [], _ => ⟨true, rfl, by simp⟩
  | i :: c, h => by
    obtain ⟨b, h1, h2⟩ := cliqueDominated_spec c (fun k hk => h k (List.mem_cons_of_mem _ hk))
    have hi := h i (List.mem_cons_self ..)
    cases hd : dom[i] with
    | false => exact ⟨false, by simp only [cliqueDominated, List.getElem?_eq_getElem hi, hd], by simp⟩
    | true =>
      refine ⟨b, by simp only [cliqueDominated, List.getElem?_eq_getElem hi, hd, h1], fun hb k hk => ?_⟩
      rcases List.mem_cons.mp hk with rfl | hk
      · rw [List.getElem?_eq_getElem hi, hd]
      · exact h2 hb k hk

variable (cliques : List (List Nat))

/-- every pruned clique is dominated by a clique that is not pruned -/
def PInv (patterns cliques : List (List Nat)) (pruned : List Bool) : Prop :=
  pruned.length = cliques.length ∧ ∀ (k : Nat) c', cliques[k]? = some c' → pruned[k]? = some true → ∃ (l : Nat) (c : List Nat), cliques[l]? = some c ∧ pruned[l]? = some false ∧ Dom patterns c c'

variable {cliques} (hc : ∀ c ∈ cliques, ∀ i ∈ c, i < patterns.length)
include hc

theorem pruneInner_spec {c : List Nat} {c1 : Nat} (hc1 : cliques[c1]? = some c) {dom : List Bool} (hl : dom.length = patterns.length)
    (hd : ∀ i : Nat, dom[i]? = some true → ∃ j ∈ c, ∃ P Q, patterns[i]? = some P ∧ patterns[j]? = some Q ∧ ∀ v ∈ P, v ∈ Q) :
    ∀ (l : List (List Nat × Nat)) (pruned : List Bool), (∀ q ∈ l, cliques[q.2]? = some q.1) → PInv patterns cliques pruned → pruned[c1]? = some false → ∃ pruned', pruneInner dom c1 l pruned = some pruned' ∧ PInv patterns cliques pruned' ∧ pruned'[c1]? = some false
  | [], pruned, _, hp, hf => ⟨pruned, rfl, hp, hf⟩
  | (c', k) :: l, pruned, hq, hp, hf => by
    have hk := hq (c', k) (List.mem_cons_self ..)
    simp only at hk
    have hkl : k < cliques.length := (List.getElem?_eq_some_iff.mp hk).1
    have hkp : k < pruned.length := by rw [hp.1]; exact hkl
    have hrec := fun p a b => pruneInner_spec hc1 hl hd l p (fun q hq' => hq q (List.mem_cons_of_mem _ hq')) a b
    unfold pruneInner
    simp only [List.getElem?_eq_getElem hkp]
    by_cases hcond : c1 ≠ k ∧ pruned[k] = false
    · rw [if_pos hcond]
      obtain ⟨b, h1, h2⟩ := cliqueDominated_spec (dom := dom) c' (fun i hi => by rw [hl]; exact hc c' (List.mem_of_getElem? hk) i hi)
      rw [h1]
      cases b with
      | false => exact hrec pruned hp hf
      | true =>
        have hdom : Dom patterns c c' := fun i hi => hd i (h2 rfl i hi)
        refine hrec (pruned.set k true) ⟨by simpa using hp.1, fun x cx hx hpx => ?_⟩ (by rw [List.getElem?_set_ne hcond.1.symm]; exact hf)
        by_cases hxk : k = x
        · subst hxk
          rw [hk] at hx
          simp only [Option.some.injEq] at hx
          subst hx
          exact ⟨c1, c, hc1, by rw [List.getElem?_set_ne hcond.1.symm]; exact hf, hdom⟩
        · rw [List.getElem?_set_ne hxk] at hpx
          obtain ⟨y, cy, y1, y2, y3⟩ := hp.2 x cx hx hpx
          by_cases hyk : k = y
          · subst hyk
            rw [hk] at y1
            simp only [Option.some.injEq] at y1
            subst y1
            exact ⟨c1, c, hc1, by rw [List.getElem?_set_ne hcond.1.symm]; exact hf, hdom.trans y3⟩
          · exact ⟨y, cy, y1, by rw [List.getElem?_set_ne hyk]; exact y2, y3⟩
    · rw [if_neg hcond]
      exact hrec pruned hp hf

include hP hne in
theorem pruneOuter_spec (expired : Nat → Bool) : ∀ (l : List (List Nat × Nat)) (pruned : List Bool), (∀ q ∈ l, cliques[q.2]? = some q.1) → PInv patterns cliques pruned →
    ∃ pruned', pruneOuter n patterns cliques expired l pruned = some pruned' ∧ PInv patterns cliques pruned'
  | [], pruned, _, hp => ⟨pruned, rfl, hp⟩
  | (c, k) :: l, pruned, hq, hp => by
    have hk := hq (c, k) (List.mem_cons_self ..)
    simp only at hk
    have hkl : k < cliques.length := (List.getElem?_eq_some_iff.mp hk).1
    have hkp : k < pruned.length := by rw [hp.1]; exact hkl
    have hrec := fun p a => pruneOuter_spec expired l p (fun q hq' => hq q (List.mem_cons_of_mem _ hq')) a
    unfold pruneOuter
    simp only [List.getElem?_eq_getElem hkp]
    cases hb : pruned[k] with
    | true =>
      simp only
      split
      · exact ⟨pruned, rfl, hp⟩
      · exact hrec pruned hp
    | false =>
      obtain ⟨dom, d1, d2, d3⟩ := dominatedPatterns_spec hP hne (c := c) (hc c (List.mem_of_getElem? hk))
      obtain ⟨pruned', p1, p2, _⟩ := pruneInner_spec hc hk d2 d3 cliques.zipIdx pruned (fun q hq' => List.mem_zipIdx_iff_getElem?.mp hq') hp (by rw [List.getElem?_eq_getElem hkp, hb])
      simp only [d1, p1]
      split
      · exact ⟨pruned', rfl, p2⟩
      · exact hrec pruned' p2

include hP hne in
theorem prunedCliques_spec (expired : Nat → Bool) : ∃ pruned, prunedCliques n patterns cliques expired = some pruned ∧ PInv patterns cliques pruned := by
  refine pruneOuter_spec hP hne hc expired cliques.zipIdx _ (fun q hq => List.mem_zipIdx_iff_getElem?.mp hq) ⟨by simp, fun k c' _ hk => ?_⟩
  rw [List.getElem?_replicate] at hk
  split at hk <;> simp at hk

omit hc in
theorem remainingCliques_spec : ∀ (cs : List (List Nat)) (bs : List Bool), bs.length = cs.length → ∃ rem, remainingCliques cs bs = some rem ∧ (∀ c ∈ rem, c ∈ cs) ∧ ∀ (k : Nat) c, cs[k]? = some c → bs[k]? = some false → c ∈ rem
  | [], _, _ => ⟨[], rfl, by simp, by simp⟩
  | c :: cs, [], h => by simp at h
  | c :: cs, b :: bs, h => by
    obtain ⟨rem, h1, h2, h3⟩ := remainingCliques_spec cs bs (by simpa using h)
    refine ⟨if b then rem else c :: rem, by simp only [remainingCliques, h1], ?_, ?_⟩
    · intro x hx
      cases b with
      | true => exact List.mem_cons_of_mem _ (h2 x hx)
      | false =>
        rcases List.mem_cons.mp hx with rfl | hx
        · exact List.mem_cons_self ..
        · exact List.mem_cons_of_mem _ (h2 x hx)
    · intro k x hk hb
      cases k with
      | zero =>
        simp only [List.getElem?_cons_zero, Option.some.injEq] at hk hb
        subst hk hb
        exact List.mem_cons_self ..
      | succ k =>
        have := h3 k x (by simpa using hk) (by simpa using hb)
        cases b with
        | true => exact this
        | false => exact List.mem_cons_of_mem _ this

omit hc in
theorem renumber_spec {α : Type} {rem : List (List Nat)} : ∀ (l : List (List Nat × α)) (id : Nat) (ps : List (List Nat)) (ds : List α) (f : Nat → Option Nat), ps.length = ds.length →
    ∃ (ps' : List (List Nat)) (ds' : List α) (f' : Nat → Option Nat), renumber rem l id ps ds f = (ps', ds', f') ∧ (∃ ext, ds' = ds ++ ext) ∧ (∀ i, i < id → f' i = f i) ∧
      (∀ (k : Nat) q, l[k]? = some q → isRemaining rem (id + k) = true → ∃ m, f' (id + k) = some m ∧ ds'[m]? = some q.2) ∧
      ∀ d ∈ ds', d ∈ ds ∨ ∃ (k : Nat) (q : List Nat × α), l[k]? = some q ∧ isRemaining rem (id + k) = true ∧ q.2 = d
  | [], id, ps, ds, f, _ => ⟨ps, ds, f, rfl, ⟨[], by simp⟩, fun _ _ => rfl, by simp, fun d hd => Or.inl hd⟩
  | (P, d) :: l, id, ps, ds, f, hlen => by
    unfold renumber
    cases hr : isRemaining rem id with
    | true =>
      rw [if_pos rfl]
      obtain ⟨ps', ds', f', h1, ⟨ext, h2⟩, h3, h4, h5⟩ := renumber_spec (rem := rem) l (id + 1) (ps ++ [P]) (ds ++ [d]) (Relax.upd f id (some ps.length)) (by simp [hlen])
      refine ⟨ps', ds', f', h1, ⟨d :: ext, by rw [h2]; simp⟩, fun i hi => ?_, fun k q hk hrem => ?_, fun x hx => ?_⟩
      · rw [h3 i (by omega)]
        exact if_neg (by omega)
      · cases k with
        | zero =>
          simp only [List.getElem?_cons_zero, Option.some.injEq] at hk
          subst hk
          refine ⟨ps.length, ?_, ?_⟩
          · rw [Nat.add_zero, h3 id (by omega)]; exact if_pos rfl
          · rw [h2, hlen]; simp
        | succ k =>
          have := h4 k q (by simpa using hk) (by rw [show id + 1 + k = id + (k + 1) by omega]; exact hrem)
          rw [show id + 1 + k = id + (k + 1) by omega] at this
          exact this
      · rcases h5 x hx with h6 | ⟨k, q, k1, k2, k3⟩
        · rcases List.mem_append.mp h6 with h6 | h6
          · exact Or.inl h6
          · simp only [List.mem_singleton] at h6
            exact Or.inr ⟨0, (P, d), rfl, by simpa using hr, h6.symm⟩
        · exact Or.inr ⟨k + 1, q, by simpa using k1, by rw [show id + (k + 1) = id + 1 + k by omega]; exact k2, k3⟩
    | false =>
      rw [if_neg (by simp)]
      obtain ⟨ps', ds', f', h1, h2, h3, h4, h5⟩ := renumber_spec (rem := rem) l (id + 1) ps ds f hlen
      refine ⟨ps', ds', f', h1, h2, fun i hi => h3 i (by omega), fun k q hk hrem => ?_, fun x hx => ?_⟩
      · cases k with
        | zero => rw [Nat.add_zero, hr] at hrem; simp at hrem
        | succ k =>
          have := h4 k q (by simpa using hk) (by rw [show id + 1 + k = id + (k + 1) by omega]; exact hrem)
          rw [show id + 1 + k = id + (k + 1) by omega] at this
          exact this
      · rcases h5 x hx with h6 | ⟨k, q, k1, k2, k3⟩
        · exact Or.inl h6
        · exact Or.inr ⟨k + 1, q, by simpa using k1, by rw [show id + (k + 1) = id + 1 + k by omega]; exact k2, k3⟩

omit hc in
theorem isRemaining_iff {rem : List (List Nat)} {i : Nat} : isRemaining rem i = true ↔ ∃ c ∈ rem, i ∈ c := by simp [isRemaining]

include hP hne in
/-- the result of pruning: a part of the cliques with new numbers, such that all other cliques are dominated by one of them, and the databases of the patterns in these cliques -/
theorem pruneDominated_spec {α : Type} {dbs : List α} (hlen : patterns.length = dbs.length) (expired : Nat → Bool) :
    ∃ (ps' : List (List Nat)) (dbs' : List α) (cliques' rem : List (List Nat)), pruneDominated n patterns dbs cliques expired = some (ps', dbs', cliques') ∧ (∀ c ∈ rem, c ∈ cliques) ∧ (∀ c' ∈ cliques, c' ∈ rem ∨ ∃ c ∈ rem, Dom patterns c c') ∧
      (∀ d ∈ dbs', ∃ i : Nat, dbs[i]? = some d) ∧ (∀ c ∈ rem, ∀ i ∈ c, ∀ d, dbs[i]? = some d → d ∈ dbs') ∧
      ∃ g : List Nat → List Nat, cliques' = rem.map g ∧ ∀ c ∈ rem, (g c).map (fun k => dbs'[k]?) = c.map (fun i => dbs[i]?) := by
  obtain ⟨pruned, h1, h2, h3⟩ := prunedCliques_spec hP hne hc expired
  obtain ⟨rem, r1, r2, r3⟩ := remainingCliques_spec cliques pruned h2
  obtain ⟨ps', dbs', f, e1, _, _, e4, e5⟩ := renumber_spec (rem := rem) (patterns.zip dbs) 0 [] [] (fun _ => none) rfl
  simp only [Nat.zero_add] at e4 e5
  have hf : ∀ c ∈ rem, ∀ i ∈ c, ∀ d, dbs[i]? = some d → ∃ m, f i = some m ∧ dbs'[m]? = some d := by
    intro c hcm i hi d hd
    have hi' := hc c (r2 c hcm) i hi
    exact e4 i (patterns[i], d) (List.getElem?_zip_eq_some.mpr ⟨List.getElem?_eq_getElem hi', hd⟩) (isRemaining_iff.mpr ⟨c, hcm, hi⟩)
  have hall : ∀ c ∈ rem, ∃ c', mapAll f c = some c' ∧ c'.map (fun k => dbs'[k]?) = c.map (fun i => dbs[i]?) := by
    intro c hcm
    have hget : ∀ i ∈ c, ∃ d m, dbs[i]? = some d ∧ f i = some m ∧ dbs'[m]? = some d := by
      intro i hi
      have hi' : i < dbs.length := by rw [← hlen]; exact hc c (r2 c hcm) i hi
      obtain ⟨m, m1, m2⟩ := hf c hcm i hi _ (List.getElem?_eq_getElem hi')
      exact ⟨_, m, List.getElem?_eq_getElem hi', m1, m2⟩
    clear hf hcm
    induction c with
    | nil => exact ⟨[], rfl, rfl⟩
    | cons i c ih =>
      obtain ⟨d, m, a1, a2, a3⟩ := hget i (List.mem_cons_self ..)
      obtain ⟨c', b1, b2⟩ := ih (fun k hk => hget k (List.mem_cons_of_mem _ hk))
      exact ⟨m :: c', by simp only [mapAll, a2, b1], by simp [a1, a3, b2]⟩
  let g : List Nat → List Nat := fun c => (mapAll f c).getD []
  have hg : ∀ c ∈ rem, mapAll f c = some (g c) := by
    intro c hcm
    obtain ⟨c', k1, _⟩ := hall c hcm
    simp [g, k1]
  have hmap : mapAll (mapAll f) rem = some (rem.map g) := by
    clear r1 r2 r3 e1 e4 e5 hf hall
    induction rem with
    | nil => rfl
    | cons c rem ih =>
      simp only [mapAll, hg c (List.mem_cons_self ..), ih (fun c' h' => hg c' (List.mem_cons_of_mem _ h')), List.map_cons]
  refine ⟨ps', dbs', rem.map g, rem, ?_, r2, ?_, ?_, ?_, g, rfl, ?_⟩
  · unfold pruneDominated
    rw [if_neg (by simpa using hlen)]
    simp only [h1, r1, e1, hmap]
  · intro c' hc'
    obtain ⟨k, hk⟩ := List.getElem?_of_mem hc'
    have hkl : k < pruned.length := by rw [h2]; exact (List.getElem?_eq_some_iff.mp hk).1
    cases hb : pruned[k] with
    | false => exact Or.inl (r3 k c' hk (by rw [List.getElem?_eq_getElem hkl, hb]))
    | true =>
      obtain ⟨l, c, l1, l2, l3⟩ := h3 k c' hk (by rw [List.getElem?_eq_getElem hkl, hb])
      exact Or.inr ⟨c, r3 l c l1 l2, l3⟩
  · intro d hd
    rcases e5 d hd with h6 | ⟨k, q, k1, _, k3⟩
    · simp at h6
    · exact ⟨k, by rw [← k3]; exact (List.getElem?_zip_eq_some.mp k1).2⟩
  · intro c hcm i hi d hd
    obtain ⟨m, _, m2⟩ := hf c hcm i hi d hd
    exact List.mem_of_getElem? m2
  · intro c hcm
    obtain ⟨c', k1, k2⟩ := hall c hcm
    have := hg c hcm
    rw [k1] at this
    simp only [Option.some.injEq] at this
    rw [← this]; exact k2

end
end Verif.Pdb
